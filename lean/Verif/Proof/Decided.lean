import Verif.Proof.Lazy

/-!
# What is decided by the bytes that have arrived
-/

set_option linter.unusedSimpArgs false

namespace Jzon

/-! ## Programs that differ only in the bounds of their loops -/

/-- The result does not depend on what the reader has not delivered yet. -/
def Op.Steady : {β : Type} → Op β → Prop
  | _, .remaining => False
  | _, _ => True

/-- `q` is `p` with greater bounds for the loops. -/
inductive Prog.Grows : {α : Type} → Prog α → Prog α → Prop
  | pure {α : Type} (a : α) : Prog.Grows (.pure a) (.pure a)
  | fail {α : Type} (e : Err) : Prog.Grows (.fail e : Prog α) (.fail e)
  | hang {α : Type} (q : Prog α) : Prog.Grows (.fail .hang) q
  | op {α β : Type} (o : Op β) (k k' : β → Prog α) : o.Steady → (∀ b, Prog.Grows (k b) (k' b)) → Prog.Grows (.op o k) (.op o k')
  | remaining {α : Type} (k k' : Nat → Prog α) : (∀ n m, n ≤ m → Prog.Grows (k n) (k' m)) →
      Prog.Grows (.op .remaining k) (.op .remaining k')
  | captured {α β : Type} (p p' : Prog β) (k k' : β × List Byte → Prog α) : Prog.Grows p p' → (∀ x, Prog.Grows (k x) (k' x)) →
      Prog.Grows (.captured p k) (.captured p' k')

namespace Prog.Grows

theorem bind {α β : Type} {p p' : Prog α} {f f' : α → Prog β} (hp : p.Grows p') (hf : ∀ a, (f a).Grows (f' a)) :
    (p >>= f).Grows (p' >>= f') := by
  change (p.bind f).Grows (p'.bind f')
  induction hp with
  | pure a => exact hf a
  | fail e => exact .fail e
  | hang q => exact .hang _
  | op o k k' ho _ ih => exact .op o _ _ ho fun b => ih b hf
  | remaining k k' _ ih => exact .remaining _ _ fun n m h => ih n m h hf
  | captured p p' k k' hp _ _ ih => exact .captured p p' _ _ hp fun x => ih x hf

theorem ofExcept {α : Type} (r : Except Err α) : (Prog.ofExcept r).Grows (Prog.ofExcept r) := by
  cases r
  · exact .fail _
  · exact .pure _

theorem bindRemaining {α : Type} {f f' : Nat → Prog α} (h : ∀ n m, n + 1 ≤ m + 1 → (f n).Grows (f' m)) :
    (Jzon.remaining >>= f).Grows (Jzon.remaining >>= f') := .remaining _ _ fun n m hn => h n m (by omega)

theorem step {α : Type} (o : Op α) (h : o.Steady) : (Prog.op o .pure).Grows (Prog.op o .pure) := .op _ _ _ h .pure

end Prog.Grows

/-- Compare two programs piece by piece. -/
macro "grow" : tactic =>
  `(tactic| repeat' first
    | exact Prog.Grows.pure _
    | exact Prog.Grows.fail _
    | exact Prog.Grows.hang _
    | exact Prog.Grows.ofExcept _
    | exact Prog.Grows.step _ trivial
    | assumption
    | omega
    | with_reducible apply Prog.Grows.bindRemaining
    | with_reducible apply Prog.Grows.bind
    | solve_by_elim
    | split
    | dsimp only
    | intro _)

section
open Prog

theorem grows_expectBytes (l : List Byte) : (expectBytes l).Grows (expectBytes l) := .step _ trivial

theorem grows_skipEscapedChar : skipEscapedChar.Grows skipEscapedChar := by
  unfold skipEscapedChar skipU4
  grow

theorem grows_skipStringLoop (n m : Nat) (h : n ≤ m) : (skipStringLoop n).Grows (skipStringLoop m) := by
  have h1 := grows_skipEscapedChar
  induction n generalizing m with
  | zero => exact .hang _
  | succ n ih =>
    obtain ⟨m, rfl⟩ : ∃ k, m = k + 1 := ⟨m - 1, by omega⟩
    have := ih m (by omega)
    unfold skipStringLoop
    grow

theorem grows_skipString : skipString.Grows skipString := by
  have := grows_skipStringLoop
  unfold skipString
  grow

theorem grows_readEscapedRetry (n m : Nat) (h : n ≤ m) (b : List Byte) (r : Nat) :
    (readEscapedRetry n b r).Grows (readEscapedRetry m b r) := by
  induction n generalizing m b r with
  | zero => exact .hang _
  | succ n ih =>
    obtain ⟨m, rfl⟩ : ∃ k, m = k + 1 := ⟨m - 1, by omega⟩
    have := ih m (by omega)
    unfold readEscapedRetry readU4
    grow

theorem grows_readEscapedChar (b : List Byte) : (readEscapedChar b).Grows (readEscapedChar b) := by
  have := grows_readEscapedRetry
  unfold readEscapedChar readU4
  grow

theorem grows_readStringLoop (n m : Nat) (h : n ≤ m) (l : List Byte) : (readStringLoop n l).Grows (readStringLoop m l) := by
  have h1 := grows_readEscapedChar
  induction n generalizing m l with
  | zero => exact .hang _
  | succ n ih =>
    obtain ⟨m, rfl⟩ : ∃ k, m = k + 1 := ⟨m - 1, by omega⟩
    have := ih m (by omega)
    unfold readStringLoop
    grow

theorem grows_readStringAsSlice : readStringAsSlice.Grows readStringAsSlice := by
  have := grows_readStringLoop
  unfold readStringAsSlice readStringAsSliceSlow
  grow

theorem grows_ReadString : ReadString.Grows ReadString := by
  have := grows_readStringAsSlice
  unfold ReadString expectQuote
  grow

theorem grows_skipNumber (c : Byte) : (skipNumber c).Grows (skipNumber c) := by
  unfold skipNumber skipUnsigned byteEOF skipFractionPart skipExponentPart skipExponentDigits
  grow

theorem grows_skipScalar (c : Byte) : (skipScalar c).Grows (skipScalar c) := by
  have h1 := grows_skipString
  have h2 := grows_expectBytes
  have h3 := grows_skipNumber
  unfold skipScalar
  grow

theorem grows_skipObjectField : skipObjectField.Grows skipObjectField := by
  have h1 := grows_skipString
  unfold skipObjectField
  grow

theorem grows_skipWithStack (n m : Nat) (h : n ≤ m) (top : StackElem) (st : Stack) :
    (skipWithStack n top st).Grows (skipWithStack m top st) := by
  induction n generalizing m top st with
  | zero => exact .hang _
  | succ n ih =>
    obtain ⟨m, rfl⟩ : ∃ k, m = k + 1 := ⟨m - 1, by omega⟩
    have hi := ih m (by omega)
    have h1 := grows_skipScalar
    have h2 := grows_skipObjectField
    have hm : ∀ st, (skipMember (skipWithStack n) st).Grows (skipMember (skipWithStack m) st) := by
      intro st
      unfold skipMember
      grow
    have he : ∀ st c, (skipElement (skipWithStack n) st c).Grows (skipElement (skipWithStack m) st c) := by
      intro st c
      unfold skipElement
      grow
    unfold skipWithStack
    grow

theorem grows_skipArrayLoop (pool : Stack) (n m : Nat) (h : n ≤ m) (c : Byte) :
    (skipArrayLoop pool n c).Grows (skipArrayLoop pool m c) := by
  have h1 := grows_skipWithStack
  have h2 := grows_skipScalar
  induction n generalizing m c with
  | zero => exact .hang _
  | succ n ih =>
    obtain ⟨m, rfl⟩ : ∃ k, m = k + 1 := ⟨m - 1, by omega⟩
    have hi := ih m (by omega)
    unfold skipArrayLoop
    grow

theorem grows_skipObjectLoop (pool : Stack) (n m : Nat) (h : n ≤ m) :
    (skipObjectLoop pool n).Grows (skipObjectLoop pool m) := by
  have h1 := grows_skipWithStack
  have h2 := grows_skipScalar
  have h3 := grows_skipObjectField
  induction n generalizing m with
  | zero => exact .hang _
  | succ n ih =>
    obtain ⟨m, rfl⟩ : ∃ k, m = k + 1 := ⟨m - 1, by omega⟩
    have hi := ih m (by omega)
    unfold skipObjectLoop
    grow

theorem grows_skipFunction (pool : Stack) (c : Byte) : (skipFunction pool c).Grows (skipFunction pool c) := by
  have h1 := grows_skipArrayLoop pool
  have h2 := grows_skipObjectLoop pool
  have h3 := grows_skipScalar
  unfold skipFunction skipArrayWithStack skipObjectWithStack
  grow

theorem grows_Skip (pool : Stack) : (Skip pool).Grows (Skip pool) := by
  have := grows_skipFunction pool
  unfold Skip
  grow

theorem grows_SkipRaw (pool : Stack) : (SkipRaw pool).Grows (SkipRaw pool) := by
  refine .op _ _ _ trivial fun c => .captured _ _ _ _ ?_ fun x => .pure _
  exact .op _ _ _ trivial fun _ => grows_skipFunction pool c

theorem grows_validProg (pool : Stack) : (validProg pool).Grows (validProg pool) := by
  have := grows_Skip pool
  unfold validProg tokenEOF
  grow

/-! ### `Read` -/

variable {F : Type}

theorem grows_readNumberAsString (c : Byte) : (readNumberAsString c).Grows (readNumberAsString c) :=
  .captured _ _ _ _ (grows_skipNumber c) fun _ => .pure _

theorem grows_readFloat (ops : FloatOps F) (c : Byte) : (readFloat ops c).Grows (readFloat ops c) := by
  have h1 : ∀ buf, (parseFloat ops buf).Grows (parseFloat ops buf) := by
    intro buf
    unfold parseFloat
    grow
  have h2 : ∀ buf c, (readFloatExponentDigits ops buf c).Grows (readFloatExponentDigits ops buf c) := by
    intro buf c
    unfold readFloatExponentDigits
    grow
  have h3 : ∀ buf, (readFloatExponentPart ops buf).Grows (readFloatExponentPart ops buf) := by
    intro buf
    unfold readFloatExponentPart
    grow
  have h4 : ∀ buf, (readFloatFractionPart ops buf).Grows (readFloatFractionPart ops buf) := by
    intro buf
    unfold readFloatFractionPart
    grow
  have h5 : ∀ c, (readPositiveFloat ops c).Grows (readPositiveFloat ops c) := by
    intro c
    unfold readPositiveFloat byteEOF
    grow
  unfold readFloat
  grow

theorem grows_readScalar (cfg : ReadCfg F) (c : Byte) : (readScalar cfg c).Grows (readScalar cfg c) := by
  have h1 := grows_readStringAsSlice
  have h2 := grows_expectBytes
  have h3 := grows_readNumberAsString
  have h4 := grows_readFloat cfg.ops
  unfold readScalar readNumberVal
  grow

theorem grows_readObjectField : readObjectField.Grows readObjectField := by
  have h1 := grows_readStringAsSlice
  unfold readObjectField
  grow

theorem grows_readWithStack (cfg : ReadCfg F) (n m : Nat) (h : n ≤ m) (top : StackElem) (st : Stack) (ns : NodeStack F) :
    (readWithStack cfg n top st ns).Grows (readWithStack cfg m top st ns) := by
  induction n generalizing m top st ns with
  | zero => exact .hang _
  | succ n ih =>
    obtain ⟨m, rfl⟩ : ∃ k, m = k + 1 := ⟨m - 1, by omega⟩
    have hi := ih m (by omega)
    have h1 := grows_readScalar cfg
    have h2 := grows_readObjectField
    have hm : ∀ st ns, (readMember cfg (readWithStack cfg n) st ns).Grows (readMember cfg (readWithStack cfg m) st ns) := by
      intro st ns
      unfold readMember
      grow
    have he : ∀ st ns c, (readElement cfg (readWithStack cfg n) st ns c).Grows (readElement cfg (readWithStack cfg m) st ns c) := by
      intro st ns c
      unfold readElement
      grow
    unfold readWithStack
    grow

theorem grows_readArrayLoop (cfg : ReadCfg F) (pool : Stack) (n m : Nat) (h : n ≤ m) (vs : List (GoVal F)) (c : Byte) :
    (readArrayLoop cfg pool n vs c).Grows (readArrayLoop cfg pool m vs c) := by
  have h1 := grows_readWithStack cfg
  have h2 := grows_readScalar cfg
  induction n generalizing m vs c with
  | zero => exact .hang _
  | succ n ih =>
    obtain ⟨m, rfl⟩ : ∃ k, m = k + 1 := ⟨m - 1, by omega⟩
    have hi := ih m (by omega)
    unfold readArrayLoop
    grow

theorem grows_readObjectLoop (cfg : ReadCfg F) (pool : Stack) (n m : Nat) (h : n ≤ m) (o : GoMap F) :
    (readObjectLoop cfg pool n o).Grows (readObjectLoop cfg pool m o) := by
  have h1 := grows_readWithStack cfg
  have h2 := grows_readScalar cfg
  have h3 := grows_readObjectField
  induction n generalizing m o with
  | zero => exact .hang _
  | succ n ih =>
    obtain ⟨m, rfl⟩ : ∃ k, m = k + 1 := ⟨m - 1, by omega⟩
    have hi := ih m (by omega)
    unfold readObjectLoop
    grow

theorem grows_Read (cfg : ReadCfg F) (pool : Stack) : (Read cfg pool).Grows (Read cfg pool) := by
  have h1 := grows_readArrayLoop cfg pool
  have h2 := grows_readObjectLoop cfg pool
  have h3 := grows_readScalar cfg
  unfold Read readFunction readArrayWithStack readObjectWithStack
  grow

/-! ### Typed decoders -/

/-- The decoders differ only in the bounds of their loops. -/
def GrowsDec (d d' : ValDecoder (Val F)) : Prop := ∀ o v, (d o v).Grows (d' o v)

theorem grows_nullThen {V : Type} (v : V) : (nullThen v).Grows (nullThen v) := by
  have := grows_expectBytes
  unfold nullThen
  grow

theorem grows_bool : GrowsDec (F := F) boolDecoder boolDecoder := by
  intro o v
  have h1 := grows_nullThen v
  have h2 := grows_expectBytes
  unfold boolDecoder
  grow

theorem grows_string (pools : Pools) : GrowsDec (F := F) (stringDecoder pools) (stringDecoder pools) := by
  intro o v
  have h1 := grows_nullThen v
  have h2 := grows_readStringAsSlice
  unfold stringDecoder
  grow

theorem grows_readUint (w k : Nat) (c : Byte) : (readUint w k c).Grows (readUint w k c) := by
  unfold readUint
  grow

theorem grows_readUint8 (c : Byte) : (readUint8 c).Grows (readUint8 c) := by
  unfold readUint8 byteEOF
  grow

theorem grows_readInt (w : Nat) (typ : List Byte) (u : Byte → Prog (BitVec w)) (hu : ∀ c, (u c).Grows (u c)) (c : Byte) :
    (readInt w typ u c).Grows (readInt w typ u c) := by
  unfold readInt
  grow

theorem grows_readIntOf (w : Width) (c : Byte) : (readIntOf w c).Grows (readIntOf w c) := by
  cases w <;> refine .bind (grows_readInt _ _ _ (fun c => ?_) c) fun _ => .pure _
  · exact grows_readUint8 c
  all_goals exact grows_readUint _ _ c

theorem grows_readUintOf (w : Width) (c : Byte) : (readUintOf w c).Grows (readUintOf w c) := by
  cases w
  · exact .bind (grows_readUint8 c) fun _ => .pure _
  all_goals exact .bind (grows_readUint _ _ c) fun _ => .pure _

theorem grows_int (read : Byte → Prog Int) (hr : ∀ c, (read c).Grows (read c)) : GrowsDec (F := F) (intDecoder read) (intDecoder read) := by
  intro o v
  have h1 := grows_nullThen v
  unfold intDecoder
  grow

theorem grows_float (ops : FloatOps F) : GrowsDec (floatDecoder ops) (floatDecoder ops) := by
  intro o v
  have h1 := grows_nullThen v
  have h2 := grows_readFloat ops
  unfold floatDecoder
  grow

theorem grows_number : GrowsDec (F := F) jsonNumberDecoder jsonNumberDecoder := by
  intro o v
  have h1 := grows_nullThen v
  have h2 := grows_readNumberAsString
  unfold jsonNumberDecoder
  grow

theorem grows_text (f : Val F → List Byte → Except Err (Val F)) : GrowsDec (textUnmarshalerDecoder f) (textUnmarshalerDecoder f) := by
  intro o v
  have h1 := grows_nullThen v
  have h2 := grows_readStringAsSlice
  unfold textUnmarshalerDecoder
  grow

theorem grows_key (Γ : TyEnv F) (pools : Pools) (k : KeyTy) : GrowsDec (keyDecoder Γ pools k) (keyDecoder Γ pools k) := by
  cases k with
  | str => exact grows_string pools
  | int w => exact grows_int _ (grows_readIntOf w)
  | uint w => exact grows_int _ (grows_readUintOf w)
  | text i => exact grows_text _

theorem grows_ptr (zero : Val F) {d d' : ValDecoder (Val F)} (hd : GrowsDec d d') : GrowsDec (ptrDecoder zero d) (ptrDecoder zero d') := by
  intro o v
  have h1 := grows_nullThen (Val.nilPtr : Val F)
  unfold ptrDecoder
  refine .bind (.step _ trivial) fun c => ?_
  split
  · exact h1
  · exact .bind (hd _ _) fun _ => .pure _

theorem grows_sliceLoop (zero : Val F) {d d' : ValDecoder (Val F)} (hd : GrowsDec d d') (n m : Nat) (h : n ≤ m) (k : Nat)
    (sh : SliceHeader (Val F)) : (sliceLoop zero d n k sh).Grows (sliceLoop zero d' m k sh) := by
  induction n generalizing m k sh with
  | zero => exact .hang _
  | succ n ih =>
    obtain ⟨m, rfl⟩ : ∃ k, m = k + 1 := ⟨m - 1, by omega⟩
    have hi := ih m (by omega)
    unfold sliceLoop
    dsimp only
    split
    · exact .fail _
    · refine .bind (hd _ _) fun v => ?_
      grow

theorem grows_slice (cfg : DecCfg F) (b : Bool) (zero : Val F) {d d' : ValDecoder (Val F)} (hd : GrowsDec d d') :
    GrowsDec (sliceDecoder cfg b zero d) (sliceDecoder cfg b zero d') := by
  intro o v
  have h1 := grows_nullThen (Val.nilSlice : Val F)
  have h2 := grows_sliceLoop zero hd
  have h3 : (captured skipString).Grows (captured skipString) := .captured _ _ _ _ grows_skipString fun _ => .pure _
  unfold sliceDecoder
  grow

theorem grows_arrayLoop (pools : Pools) (length : Nat) (zero : Val F) {d d' : ValDecoder (Val F)} (hd : GrowsDec d d') (n m : Nat)
    (h : n ≤ m) (k : Nat) (vs : List (Val F)) :
    (arrayLoop pools length zero d n k vs).Grows (arrayLoop pools length zero d' m k vs) := by
  have h1 := grows_Skip pools.stack
  induction n generalizing m k vs with
  | zero => exact .hang _
  | succ n ih =>
    obtain ⟨m, rfl⟩ : ∃ k, m = k + 1 := ⟨m - 1, by omega⟩
    have hi := ih m (by omega)
    unfold arrayLoop
    refine .bind ?_ fun x => ?_
    · split
      · exact .bind (hd _ _) fun _ => .pure _
      · grow
    · grow

theorem grows_array (pools : Pools) (length : Nat) (zero : Val F) {d d' : ValDecoder (Val F)} (hd : GrowsDec d d') :
    GrowsDec (arrayDecoder pools length zero d) (arrayDecoder pools length zero d') := by
  intro o v
  have h1 := grows_nullThen v
  have h2 := grows_arrayLoop pools length zero hd
  unfold arrayDecoder
  grow

theorem grows_mapLoop (kz zero : Val F) {kd d d' : ValDecoder (Val F)} (hk : GrowsDec kd kd) (hd : GrowsDec d d') (n m : Nat)
    (h : n ≤ m) (f : Key → Option (Val F)) : (mapLoop kz zero kd d n f).Grows (mapLoop kz zero kd d' m f) := by
  induction n generalizing m f with
  | zero => exact .hang _
  | succ n ih =>
    obtain ⟨m, rfl⟩ : ∃ k, m = k + 1 := ⟨m - 1, by omega⟩
    have hi := ih m (by omega)
    unfold mapLoop
    refine .bind (hk _ _) fun x => .bind (.step _ trivial) fun y => .bind (hd _ _) fun z => ?_
    grow

theorem grows_map (kz zero : Val F) {kd d d' : ValDecoder (Val F)} (hk : GrowsDec kd kd) (hd : GrowsDec d d') :
    GrowsDec (mapDecoder kz zero kd d) (mapDecoder kz zero kd d') := by
  intro o v
  have h1 := grows_nullThen (Val.nilMap : Val F)
  have h2 := grows_mapLoop kz zero hk hd
  unfold mapDecoder
  grow

theorem grows_atPath (zero : Ty → Val F) (path : List PathStep) {f f' : Val F → Prog (Val F)} (h : ∀ v, (f v).Grows (f' v)) (v : Val F) :
    (atPath zero path f v).Grows (atPath zero path f' v) := by
  induction path generalizing v with
  | nil => exact h v
  | cons s path ih =>
    cases s with
    | member i =>
      cases v <;> try exact .fail _
      simp only [atPath]
      split
      · exact .bind (ih _) fun _ => .pure _
      · exact .fail _
    | deref exported t =>
      cases v <;> try exact .fail _
      · simp only [atPath]
        split
        · exact .fail _
        · exact .bind (ih _) fun _ => .pure _
      · exact .bind (ih _) fun _ => .pure _

theorem grows_structMember (cfg : DecCfg F) (pools : Pools) (zero : Ty → Val F) {b b' : Ty → ValDecoder (Val F)}
    (h : ∀ t, GrowsDec (b t) (b' t)) (fs : List Field) (name : List Byte) (v : Val F) :
    (structMember cfg pools zero b fs name v).Grows (structMember cfg pools zero b' fs name v) := by
  have h1 := grows_Skip pools.stack
  unfold structMember
  refine .bind (.ofExcept _) fun r => ?_
  cases r with
  | none =>
    dsimp only
    grow
  | some i =>
    dsimp only
    cases fs[i]? with
    | none => exact .fail _
    | some f => exact grows_atPath zero _ (fun v => h _ _ v) v

theorem grows_structLoop {f f' : List Byte → Val F → Prog (Val F)} (h : ∀ l v, (f l v).Grows (f' l v)) (n m : Nat) (hn : n ≤ m)
    (v : Val F) : (structLoop f n v).Grows (structLoop f' m v) := by
  have h1 := grows_readObjectField
  induction n generalizing m v with
  | zero => exact .hang _
  | succ n ih =>
    obtain ⟨m, rfl⟩ : ∃ k, m = k + 1 := ⟨m - 1, by omega⟩
    have hi := ih m (by omega)
    unfold structLoop
    grow

theorem grows_struct {f f' : List Byte → Val F → Prog (Val F)} (h : ∀ l v, (f l v).Grows (f' l v)) :
    GrowsDec (structDecoder f) (structDecoder f') := by
  intro o v
  have h1 := grows_nullThen v
  have h2 := grows_structLoop h
  unfold structDecoder
  grow

theorem grows_empty (cfg : DecCfg F) (pools : Pools) : GrowsDec (emptyObjectDecoder cfg pools) (emptyObjectDecoder cfg pools) := by
  intro o v
  have h1 := grows_nullThen v
  have h2 := grows_skipFunction pools.stack
  unfold emptyObjectDecoder
  grow

theorem grows_step (Γ : TyEnv F) (cfg : DecCfg F) (pools : Pools) {d d' : Nat → ValDecoder (Val F)} (h : ∀ i, GrowsDec (d i) (d' i))
    (t : Ty) : GrowsDec (decoderStep Γ cfg pools d t) (decoderStep Γ cfg pools d' t) := by
  induction t with
  | bool => exact grows_bool
  | str => exact grows_string _
  | int w => exact grows_int _ (grows_readIntOf w)
  | uint w => exact grows_int _ (grows_readUintOf w)
  | float32 => exact grows_float _
  | float64 => exact grows_float _
  | number => exact grows_number
  | raw => exact fun o v => .bind (.bind (grows_SkipRaw _) fun _ => .pure _) fun _ => .pure _
  | any => exact fun o v => .bind (grows_Read _ _) fun _ => .pure _
  | ptr t ih => exact grows_ptr _ ih
  | slice t ih => exact grows_slice _ _ _ ih
  | array k t ih => exact grows_array _ _ _ ih
  | map k t ih => exact grows_map _ _ (grows_key Γ pools k) ih
  | named i => exact h i
  | textUnmarshaler i => exact grows_text _
  | jsonUnmarshaler i => exact fun o v => .bind (grows_SkipRaw _) fun _ => .ofExcept _
  | unsupported => exact fun o v => .fail _

theorem grows_named (Γ : TyEnv F) (cfg : DecCfg F) (pools : Pools) (n m : Nat) (h : n ≤ m) (i : Nat) :
    GrowsDec (namedDecoder Γ cfg pools n i) (namedDecoder Γ cfg pools m i) := by
  induction n generalizing m i with
  | zero => exact fun o v => .hang _
  | succ n ih =>
    obtain ⟨m, rfl⟩ : ∃ k, m = k + 1 := ⟨m - 1, by omega⟩
    have hi := ih m (by omega)
    unfold namedDecoder
    cases Γ.defn i with
    | slice t => exact grows_slice _ _ _ (grows_step _ _ _ hi t)
    | array k t => exact grows_array _ _ _ (grows_step _ _ _ hi t)
    | map k t => exact grows_map _ _ (grows_key Γ pools k) (grows_step _ _ _ hi t)
    | struct fs =>
      cases fs with
      | nil => exact grows_empty _ _
      | cons f fs => exact grows_struct fun l v => grows_structMember _ _ _ (fun t => grows_step _ _ _ hi t) _ _ _

theorem grows_ReadVal (Γ : TyEnv F) (cfg : DecCfg F) (pools : Pools) (t : Ty) (old : Val F) :
    (ReadVal Γ cfg pools t old).Grows (ReadVal Γ cfg pools t old) :=
  .bindRemaining fun _ _ h => grows_step Γ cfg pools (grows_named Γ cfg pools _ _ (by omega)) t _ _

theorem grows_unmarshalProg (Γ : TyEnv F) (cfg : DecCfg F) (pools : Pools) (t : Ty) (old : Val F) :
    (unmarshalProg Γ cfg pools t old).Grows (unmarshalProg Γ cfg pools t old) := by
  have := grows_ReadVal Γ cfg pools t old
  unfold unmarshalProg tokenEOF
  grow

end

/-! ## Two readers that begin alike -/

/-- The iterators agree, but the reader of the first ends with the error `e` where the second goes on with `later`. -/
def Twin (e : Err) (later : List RdRes) (it1 it2 : It) : Prop :=
  ∃ s, it1.reader = some (s ++ [⟨[], some e⟩]) ∧ (∀ r ∈ s, r.err = none) ∧ it2 = { it1 with reader := some (s ++ later) }

theorem fill_again (it : It) (r : Option (List RdRes)) (d : List Byte) (rest : List RdRes) :
    ({ it with reader := r } : It).fill d rest = it.fill d rest := by
  unfold It.fill
  split <;> rfl

theorem fill_rest (it : It) (d : List Byte) (rest rest' : List RdRes) :
    it.fill d rest' = { it.fill d rest with reader := some rest' } := by
  unfold It.fill
  split <;> rfl

theorem readLoop_again (it : It) (r : Option (List RdRes)) (script : List RdRes) :
    It.readLoop script { it with reader := r } = It.readLoop script it := by
  cases script with
  | nil => simp only [It.readLoop, fill_again]
  | cons x rest => simp only [It.readLoop, fill_again]

theorem readLoop_twin {e : Err} (he : e ≠ .eof) (later s : List RdRes) (hs : ∀ r ∈ s, r.err = none) (it : It) :
    (It.readLoop (s ++ [⟨[], some e⟩]) it).1 = some e ∨
    ∃ s' it', s'.length < s.length ∧ (∀ r ∈ s', r.err = none) ∧ it'.reader = some (s' ++ [⟨[], some e⟩]) ∧
      It.readLoop (s ++ [⟨[], some e⟩]) it = (none, it') ∧
      It.readLoop (s ++ later) it = (none, { it' with reader := some (s' ++ later) }) := by
  induction s generalizing it with
  | nil =>
    left
    simp [It.readLoop, he]
  | cons r s ih =>
    have hr := hs r (by simp)
    have hs' : ∀ r ∈ s, r.err = none := fun r h => hs r (by simp [h])
    simp only [List.cons_append, It.readLoop, hr]
    by_cases hl : r.data.length > 0
    · simp only [hl, if_true]
      right
      exact ⟨s, _, by simp, hs', fill_reader _ _ _, rfl, by rw [fill_rest it r.data (s ++ [⟨[], some e⟩])]⟩
    · simp only [hl, if_false]
      have hx : It.readLoop (s ++ later) (it.fill r.data (s ++ later)) =
          It.readLoop (s ++ later) (it.fill r.data (s ++ [⟨[], some e⟩])) := by
        rw [fill_rest it r.data (s ++ [⟨[], some e⟩]) (s ++ later)]
        exact readLoop_again _ _ _
      rw [hx]
      rcases ih hs' (it.fill r.data (s ++ [⟨[], some e⟩])) with h | ⟨s', it', h1, h2⟩
      · exact .inl h
      · exact .inr ⟨s', it', by simp only [List.length_cons]; omega, h2⟩

theorem readMore_twin {e : Err} (he : e ≠ .eof) {later s : List RdRes} (hs : ∀ r ∈ s, r.err = none) {it1 it2 : It}
    (h1 : it1.reader = some (s ++ [⟨[], some e⟩])) (h2 : it2 = { it1 with reader := some (s ++ later) }) :
    it1.readMore.1 = some e ∨
    ∃ s' it', s'.length < s.length ∧ (∀ r ∈ s', r.err = none) ∧ it'.reader = some (s' ++ [⟨[], some e⟩]) ∧
      it1.readMore = (none, it') ∧ it2.readMore = (none, { it' with reader := some (s' ++ later) }) := by
  subst h2
  simp only [It.readMore, h1]
  rw [readLoop_again it1 (some (s ++ later)) (s ++ later)]
  exact readLoop_twin he later s hs it1

theorem scanLoop_twin {σ β : Type} (body : σ → Byte → Act σ β) (onEOF : σ → Except Err β) {e : Err} (he : e ≠ .eof)
    {later : List RdRes} (f1 f2 : Nat) (st : σ) (s : List RdRes) (hs : ∀ r ∈ s, r.err = none) (it1 it2 : It)
    (hf1 : s.length < f1) (hf2 : s.length < f2)
    (h1 : it1.reader = some (s ++ [⟨[], some e⟩])) (h2 : it2 = { it1 with reader := some (s ++ later) }) :
    (scanLoop body onEOF f1 st it1).1 = .error e ∨
    (scanLoop body onEOF f2 st it2).1 = (scanLoop body onEOF f1 st it1).1 ∧
      Twin e later (scanLoop body onEOF f1 st it1).2 (scanLoop body onEOF f2 st it2).2 := by
  induction f1 generalizing f2 st s it1 it2 with
  | zero => omega
  | succ f1 ih =>
    obtain ⟨f2, rfl⟩ : ∃ k, f2 = k + 1 := ⟨f2 - 1, by omega⟩
    subst h2
    simp only [scanLoop]
    cases hb : scanBuf body st it1.head (it1.buf.drop it1.head) with
    | stop b j =>
      right
      exact ⟨rfl, s, h1, hs, rfl⟩
    | err x =>
      right
      exact ⟨rfl, s, h1, hs, rfl⟩
    | exhausted st' j =>
      dsimp only
      rcases readMore_twin he (later := later) hs (it1 := { it1 with head := j })
        (it2 := { it1 with head := j, reader := some (s ++ later) }) h1 rfl with
        h | ⟨s', it', hl, hs', hr, hm1, hm2⟩
      · left
        cases hm : ({ it1 with head := j } : It).readMore with
        | mk x it' =>
          rw [hm] at h
          cases h
          simp [he]
      · rw [hm1, hm2]
        exact ih f2 st' s' hs' it' _ (by omega) (by omega) hr rfl

theorem scan_twin {σ β : Type} (body : σ → Byte → Act σ β) (onEOF : σ → Except Err β) (st : σ) {e : Err} (he : e ≠ .eof)
    {later : List RdRes} {it1 it2 : It} (ht : Twin e later it1 it2) :
    (it1.scan body onEOF st).1 = .error e ∨
    (it2.scan body onEOF st).1 = (it1.scan body onEOF st).1 ∧ Twin e later (it1.scan body onEOF st).2 (it2.scan body onEOF st).2 := by
  obtain ⟨s, h1, hs, h2⟩ := ht
  unfold It.scan
  refine scanLoop_twin body onEOF he _ _ st s hs it1 it2 ?_ ?_ h1 h2
  · simp [h1]; omega
  · simp [h2]; omega

theorem nextByte_twin {e : Err} (he : e ≠ .eof) {later : List RdRes} {it1 it2 : It} (ht : Twin e later it1 it2) :
    it1.nextByte.1 = .error e ∨ it2.nextByte.1 = it1.nextByte.1 ∧ Twin e later it1.nextByte.2 it2.nextByte.2 := by
  obtain ⟨s, h1, hs, h2⟩ := ht
  have e1 : it2.head = it1.head := by rw [h2]
  have e2 : it2.buf = it1.buf := by rw [h2]
  unfold It.nextByte
  rw [e1, e2]
  by_cases hh : it1.head = it1.buf.length
  · simp only [hh, if_true]
    rcases readMore_twin he hs h1 h2 with h | ⟨s', it', hl, hs', hr, hm1, hm2⟩
    · left
      cases hm : it1.readMore with
      | mk x it' =>
        rw [hm] at h
        cases h
        rfl
    · right
      rw [hm1, hm2]
      dsimp only
      cases it'.buf[it'.head]? with
      | none => exact ⟨rfl, s', hr, hs', rfl⟩
      | some c => exact ⟨rfl, s', hr, hs', rfl⟩
  · simp only [hh, if_false]
    right
    rw [e1, e2]
    cases it1.buf[it1.head]? with
    | none => exact ⟨rfl, s, h1, hs, h2⟩
    | some c => exact ⟨rfl, s, h1, hs, h2⟩

theorem dec_twin (d : Dec) (c : Byte) {e : Err} {later : List RdRes} {it1 it2 : It} (ht : Twin e later it1 it2) :
    (d.runM c it2).1 = (d.runM c it1).1 ∧ Twin e later (d.runM c it1).2 (d.runM c it2).2 := by
  obtain ⟨s, h1, hs, h2⟩ := ht
  cases d with
  | take => exact ⟨rfl, s, h1, hs, by simp [Dec.runM, h2]⟩
  | leave => exact ⟨rfl, s, h1, hs, h2⟩
  | fail e => exact ⟨rfl, s, h1, hs, h2⟩

theorem op_twin {β : Type} (o : Op β) (ho : o.Steady) {e : Err} (he : e ≠ .eof) {later : List RdRes} {it1 it2 : It}
    (ht : Twin e later it1 it2) :
    (o.runM it1).1 = .error e ∨ (o.runM it2).1 = (o.runM it1).1 ∧ Twin e later (o.runM it1).2 (o.runM it2).2 := by
  cases o with
  | token d =>
    simp only [Op.runM]
    rcases scan_twin tokenBody (fun _ => (.error .eof : Except Err Byte)) () he ht with h | ⟨h, ht'⟩
    · left
      cases hm : it1.scan tokenBody (fun _ => (.error .eof : Except Err Byte)) () with
      | mk x it' =>
        rw [hm] at h
        cases h
        rfl
    · right
      cases hm1 : it1.scan tokenBody (fun _ => (.error .eof : Except Err Byte)) () with
      | mk x it' =>
        cases hm2 : it2.scan tokenBody (fun _ => (.error .eof : Except Err Byte)) () with
        | mk y it'' =>
          rw [hm1, hm2] at h ht'
          cases h
          cases x with
          | error x => exact ⟨rfl, ht'⟩
          | ok c => exact dec_twin _ _ ht'
  | byte d =>
    simp only [Op.runM]
    rcases nextByte_twin he ht with h | ⟨h, ht'⟩
    · left
      cases hm : it1.nextByte with
      | mk x it' =>
        rw [hm] at h
        cases h
        rfl
    · right
      cases hm1 : it1.nextByte with
      | mk x it' =>
        cases hm2 : it2.nextByte with
        | mk y it'' =>
          rw [hm1, hm2] at h ht'
          cases h
          cases x with
          | error x => exact ⟨rfl, ht'⟩
          | ok c => exact dec_twin _ _ ht'
  | scan body onEOF st => exact scan_twin body onEOF st he ht
  | inputOffset =>
    right
    have h := ht
    obtain ⟨s, h1, hs, h2⟩ := h
    exact ⟨by simp [Op.runM, h2], ht⟩
  | remaining => exact ho.elim

theorem flatScript_calm (s later : List RdRes) (hs : ∀ r ∈ s, r.err = none) :
    flatScript (s ++ later) = chunkBytes s ++ flatScript later := by
  induction s with
  | nil => rfl
  | cons r s ih =>
    simp only [List.cons_append, flatScript, hs r (by simp), ih fun r h => hs r (by simp [h]), chunkBytes, List.flatMap_cons,
      List.append_assoc]

/-- What a program returns when the reader of its iterator fails behind the bytes that have arrived: this error, or what it returns
whatever else arrives, and then it has asked for nothing more. -/
theorem grows_twin {α : Type} {p q : Prog α} (h : p.Grows q) {e : Err} (he : e ≠ .eof) {later : List RdRes} {it1 it2 : It}
    (ht : Twin e later it1 it2) :
    (p.runM it1).1 = .error e ∨ (p.runM it1).1 = .error .hang ∨
    (q.runM it2).1 = (p.runM it1).1 ∧ Twin e later (p.runM it1).2 (q.runM it2).2 := by
  induction h generalizing it1 it2 with
  | pure a => exact .inr (.inr ⟨rfl, ht⟩)
  | fail e => exact .inr (.inr ⟨rfl, ht⟩)
  | hang q => exact .inr (.inl rfl)
  | op o k k' ho _ ih =>
    simp only [Prog.runM]
    rcases op_twin o ho he ht with h | ⟨h, ht'⟩
    · left
      cases hm : o.runM it1 with
      | mk x it' =>
        rw [hm] at h
        cases h
        rfl
    · cases hm1 : o.runM it1 with
      | mk x it' =>
        cases hm2 : o.runM it2 with
        | mk y it'' =>
          rw [hm1, hm2] at h ht'
          cases h
          cases x with
          | error x => exact .inr (.inr ⟨rfl, ht'⟩)
          | ok b => exact ih b ht'
  | remaining k k' _ ih =>
    simp only [Prog.runM, Op.runM]
    refine ih _ _ ?_ ht
    obtain ⟨s, h1, hs, h2⟩ := ht
    subst h2
    simp only [It.rem, flatReader, h1, Option.getD_some, flatScript_calm _ _ hs, List.length_append]
    simp only [flatScript, he, if_false, List.length_nil]
    omega
  | captured p p' k k' _ _ ihp ihk =>
    obtain ⟨s, h1, hs, rfl⟩ := ht
    have ht0 : Twin e later { it1 with capture := true } { it1 with capture := true, reader := some (s ++ later) } := ⟨s, h1, hs, rfl⟩
    simp only [Prog.runM]
    rcases ihp ht0 with h | h | ⟨h, ht'⟩
    · left
      cases hm : p.runM { it1 with capture := true } with
      | mk x it' =>
        rw [hm] at h
        cases h
        rfl
    · right; left
      cases hm : p.runM { it1 with capture := true } with
      | mk x it' =>
        rw [hm] at h
        cases h
        rfl
    · cases hm1 : p.runM { it1 with capture := true } with
      | mk x it' =>
        cases hm2 : p'.runM { it1 with capture := true, reader := some (s ++ later) } with
        | mk y it'' =>
          rw [hm1, hm2] at h ht'
          cases h
          obtain ⟨s', h1', hs', h2'⟩ := ht'
          dsimp only at h1' h2'
          subst h2'
          have ht2 : Twin e later { it' with capture := it1.capture } { it' with capture := it1.capture, reader := some (s' ++ later) } :=
            ⟨s', h1', hs', rfl⟩
          cases x with
          | error x => exact .inr (.inr ⟨rfl, ht2⟩)
          | ok b =>
            dsimp only
            split
            · exact ihk _ ht2
            · exact .inr (.inr ⟨rfl, ht2⟩)

end Jzon
