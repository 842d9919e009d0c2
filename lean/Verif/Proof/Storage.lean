import Verif.Proof.Phys
import Verif.Spec.Storage

/-!
# How large the storage of an iterator gets
-/

set_option linter.unusedSimpArgs false

namespace Jzon

/-- The operation may have this result. -/
def Op.Gives : {β : Type} → Op β → β → Prop
  | _, .token d, b => ∀ e, d b ≠ .fail e
  | _, .byte d, b => ∀ e, d b ≠ .fail e
  | _, _, _ => True

/-- The program never sets `it.capture`. -/
inductive Prog.Plain : {α : Type} → Prog α → Prop
  | pure {α : Type} (a : α) : Prog.Plain (.pure a)
  | fail {α : Type} (e : Err) : Prog.Plain (.fail e : Prog α)
  | op {α β : Type} (o : Op β) (k : β → Prog α) : (∀ b, o.Gives b → Prog.Plain (k b)) → Prog.Plain (.op o k)

namespace Prog.Plain

theorem bind {α β : Type} {p : Prog α} {f : α → Prog β} (hp : p.Plain) (hf : ∀ a, (f a).Plain) : (p >>= f).Plain := by
  change (p.bind f).Plain
  induction hp with
  | pure a => exact hf a
  | fail e => exact .fail e
  | op o k _ ih => exact .op o _ fun b hb => ih b hb

theorem one {β : Type} (o : Op β) : (Prog.op o .pure).Plain := .op o _ fun b _ => .pure b

theorem ofExcept {α : Type} (r : Except Err α) : (Prog.ofExcept r).Plain := by
  cases r
  · exact .fail _
  · exact .pure _

end Prog.Plain

/-- Look through the program. -/
macro "plain" : tactic =>
  `(tactic| repeat' first
    | exact Prog.Plain.pure _
    | exact Prog.Plain.fail _
    | exact Prog.Plain.one _
    | exact Prog.Plain.ofExcept _
    | assumption
    | solve_by_elim
    | split
    | dsimp only
    | with_reducible apply Prog.Plain.bind
    | intro _)


section
open Prog

attribute [local simp] Id.run

theorem plain_skipExponentDigits (c : Byte) : (skipExponentDigits c).Plain := by unfold skipExponentDigits; plain

theorem plain_skipExponentPart : skipExponentPart.Plain := by
  have := plain_skipExponentDigits
  unfold skipExponentPart; plain

theorem plain_skipFractionPart : skipFractionPart.Plain := by
  have := plain_skipExponentPart
  unfold skipFractionPart; plain

theorem plain_byteEOF (f : Byte → Bool) : (byteEOF f).Plain := .one _

theorem plain_skipUnsigned (c : Byte) : (skipUnsigned c).Plain := by
  have := plain_skipExponentPart
  have := plain_skipFractionPart
  have := plain_byteEOF
  unfold skipUnsigned; plain

theorem plain_skipNumber (c : Byte) : (skipNumber c).Plain := by
  have := plain_skipUnsigned
  unfold skipNumber; plain

theorem plain_expectBytes (s : List Byte) : (expectBytes s).Plain := .one _

theorem plain_skipEscapedChar : skipEscapedChar.Plain := by
  have : skipU4.Plain := .one _
  unfold skipEscapedChar; plain

theorem plain_skipStringLoop (n : Nat) : (skipStringLoop n).Plain := by
  have := plain_skipEscapedChar
  induction n <;> unfold skipStringLoop <;> plain

theorem plain_skipString : skipString.Plain := by
  have := plain_skipStringLoop
  unfold skipString; plain

theorem plain_readEscapedRetry (n : Nat) (b : List Byte) (r : Nat) : (readEscapedRetry n b r).Plain := by
  have : readU4.Plain := .one _
  induction n generalizing b r <;> unfold readEscapedRetry <;> plain

theorem plain_readEscapedChar (b : List Byte) : (readEscapedChar b).Plain := by
  have : readU4.Plain := .one _
  have := plain_readEscapedRetry
  unfold readEscapedChar; plain

theorem plain_readStringLoop (n : Nat) (b : List Byte) : (readStringLoop n b).Plain := by
  have := plain_readEscapedChar
  induction n generalizing b <;> unfold readStringLoop <;> plain

theorem plain_readStringAsSlice : readStringAsSlice.Plain := by
  have := plain_readStringLoop
  unfold readStringAsSlice readStringAsSliceSlow; plain

theorem plain_ReadString : ReadString.Plain := by
  have := plain_readStringAsSlice
  unfold ReadString expectQuote; plain

theorem plain_skipScalar (c : Byte) : (skipScalar c).Plain := by
  have := plain_skipString
  have := plain_expectBytes
  have := plain_skipNumber
  unfold skipScalar; plain

theorem plain_skipObjectField : skipObjectField.Plain := by
  have := plain_skipString
  unfold skipObjectField; plain

theorem plain_skipWithStack (n : Nat) (top : StackElem) (s : Stack) : (skipWithStack n top s).Plain := by
  have := plain_skipObjectField
  have := plain_skipScalar
  induction n generalizing top s <;> unfold skipWithStack <;> try unfold skipMember skipElement
  all_goals plain

theorem plain_skipArrayLoop (pool : Stack) (n : Nat) (c : Byte) : (skipArrayLoop pool n c).Plain := by
  have := plain_skipWithStack
  have := plain_skipScalar
  induction n generalizing c <;> unfold skipArrayLoop <;> plain

theorem plain_skipObjectLoop (pool : Stack) (n : Nat) : (skipObjectLoop pool n).Plain := by
  have := plain_skipWithStack
  have := plain_skipScalar
  have := plain_skipObjectField
  induction n <;> unfold skipObjectLoop <;> plain

theorem plain_skipFunction (pool : Stack) (c : Byte) : (skipFunction pool c).Plain := by
  have := plain_skipArrayLoop
  have := plain_skipObjectLoop
  have := plain_skipScalar
  unfold skipFunction skipArrayWithStack skipObjectWithStack; plain

theorem plain_Skip (pool : Stack) : (Skip pool).Plain := by
  have := plain_skipFunction
  unfold Skip; plain

theorem plain_readUint (w k : Nat) (c : Byte) : (readUint w k c).Plain := by unfold readUint; plain

theorem plain_readUint8 (c : Byte) : (readUint8 c).Plain := by
  have := plain_byteEOF
  unfold readUint8; plain

theorem plain_readInt (w : Nat) (typ : List Byte) (u : Byte → Prog (BitVec w)) (hu : ∀ c, (u c).Plain) (c : Byte) :
    (readInt w typ u c).Plain := by unfold readInt; plain

theorem plain_readIntOf (w : Width) (c : Byte) : (readIntOf w c).Plain := by
  cases w <;> unfold readIntOf <;> refine .bind (plain_readInt _ _ _ ?_ _) (fun _ => .pure _)
  · exact plain_readUint8
  all_goals exact plain_readUint _ _

theorem plain_readUintOf (w : Width) (c : Byte) : (readUintOf w c).Plain := by
  have := plain_readUint8
  have := plain_readUint
  cases w <;> unfold readUintOf <;> plain

/-! ### Typed decoders -/

variable {F : Type}

theorem plain_nullThen {V : Type} (v : V) : (nullThen v).Plain := by
  have := plain_expectBytes
  unfold nullThen; plain

theorem plain_bool (o : DecOpts) (old : Val F) : (boolDecoder o old).Plain := by
  have := plain_expectBytes
  have := plain_nullThen old
  unfold boolDecoder; plain

theorem plain_string (pools : Pools) (o : DecOpts) (old : Val F) : (stringDecoder pools o old).Plain := by
  have := plain_readStringAsSlice
  have := plain_nullThen old
  unfold stringDecoder; plain

theorem plain_int (read : Byte → Prog Int) (hr : ∀ c, (read c).Plain) (o : DecOpts) (old : Val F) :
    (intDecoder read o old).Plain := by
  have := plain_nullThen old
  unfold intDecoder; plain

theorem plain_text (f : Val F → List Byte → Except Err (Val F)) (o : DecOpts) (old : Val F) :
    (textUnmarshalerDecoder f o old).Plain := by
  have := plain_readStringAsSlice
  have := plain_nullThen old
  unfold textUnmarshalerDecoder; plain

theorem plain_ptr (zero : Val F) (elem : ValDecoder (Val F)) (he : ∀ o v, (elem o v).Plain) (o : DecOpts) (old : Val F) :
    (ptrDecoder zero elem o old).Plain := by
  have := plain_nullThen (Val.nilPtr : Val F)
  unfold ptrDecoder; plain

theorem plain_sliceLoop (zero : Val F) (elem : ValDecoder (Val F)) (he : ∀ o v, (elem o v).Plain) (n k : Nat)
    (sh : SliceHeader (Val F)) : (sliceLoop zero elem n k sh).Plain := by
  induction n generalizing k sh <;> unfold sliceLoop <;> plain

theorem plain_slice (cfg : DecCfg F) (zero : Val F) (elem : ValDecoder (Val F)) (he : ∀ o v, (elem o v).Plain)
    (o : DecOpts) (old : Val F) : (sliceDecoder cfg false zero elem o old).Plain := by
  have := plain_nullThen (Val.nilSlice : Val F)
  have := plain_sliceLoop zero elem he
  unfold sliceDecoder
  refine .op _ _ fun c hc => ?_
  have hq : c ≠ b! '"' := by
    intro h
    subst h
    exact hc _ rfl
  change (if c = b! 'n' then _ else if c = b! '"' then _ else _ : Prog (Val F)).Plain
  rw [if_neg hq]
  plain

theorem plain_arrayLoop (pools : Pools) (length : Nat) (zero : Val F) (elem : ValDecoder (Val F)) (he : ∀ o v, (elem o v).Plain)
    (n k : Nat) (vs : List (Val F)) : (arrayLoop pools length zero elem n k vs).Plain := by
  have := plain_Skip
  induction n generalizing k vs <;> unfold arrayLoop <;> plain

theorem plain_array (pools : Pools) (length : Nat) (zero : Val F) (elem : ValDecoder (Val F)) (he : ∀ o v, (elem o v).Plain)
    (o : DecOpts) (old : Val F) : (arrayDecoder pools length zero elem o old).Plain := by
  have := plain_nullThen old
  have := plain_arrayLoop pools length zero elem he
  unfold arrayDecoder; plain

theorem plain_mapLoop (kz zero : Val F) (kd elem : ValDecoder (Val F)) (hk : ∀ o v, (kd o v).Plain) (he : ∀ o v, (elem o v).Plain)
    (n : Nat) (m : Key → Option (Val F)) : (mapLoop kz zero kd elem n m).Plain := by
  induction n generalizing m <;> unfold mapLoop <;> plain

theorem plain_map (kz zero : Val F) (kd elem : ValDecoder (Val F)) (hk : ∀ o v, (kd o v).Plain) (he : ∀ o v, (elem o v).Plain)
    (o : DecOpts) (old : Val F) : (mapDecoder kz zero kd elem o old).Plain := by
  have := plain_nullThen (Val.nilMap : Val F)
  have := plain_mapLoop kz zero kd elem hk he
  unfold mapDecoder; plain

theorem plain_atPath (zero : Ty → Val F) (p : List PathStep) (f : Val F → Prog (Val F)) (hf : ∀ v, (f v).Plain) (v : Val F) :
    (atPath zero p f v).Plain := by
  fun_induction atPath zero p f v <;> plain

theorem plain_readObjectField : readObjectField.Plain := by
  have := plain_readStringAsSlice
  unfold readObjectField; plain

theorem plain_structMember (cfg : DecCfg F) (pools : Pools) (zero : Ty → Val F) (build : Ty → ValDecoder (Val F)) (fs : List Field)
    (hb : ∀ f ∈ fs, ∀ o v, (build f.ty o v).Plain) (name : List Byte) (v : Val F) :
    (structMember cfg pools zero build fs name v).Plain := by
  have := plain_Skip
  unfold structMember
  refine .bind (.ofExcept _) fun i => ?_
  cases i with
  | none => dsimp only; plain
  | some i =>
    cases hf : fs[i]? with
    | none => simp only [hf]; exact .fail _
    | some f =>
      simp only [hf]
      exact plain_atPath _ _ _ (hb f (List.mem_of_getElem? hf) _) _

theorem plain_structLoop (member : List Byte → Val F → Prog (Val F)) (hm : ∀ k v, (member k v).Plain) (n : Nat) (v : Val F) :
    (structLoop member n v).Plain := by
  have := plain_readObjectField
  induction n generalizing v <;> unfold structLoop <;> plain

theorem plain_struct (member : List Byte → Val F → Prog (Val F)) (hm : ∀ k v, (member k v).Plain) (o : DecOpts) (v : Val F) :
    (structDecoder member o v).Plain := by
  have := plain_nullThen v
  have := plain_structLoop member hm
  unfold structDecoder; plain

theorem plain_empty (cfg : DecCfg F) (pools : Pools) (o : DecOpts) (v : Val F) : (emptyObjectDecoder cfg pools o v).Plain := by
  have := plain_nullThen v
  have := plain_skipFunction
  unfold emptyObjectDecoder; plain

theorem plain_key (Γ : TyEnv F) (pools : Pools) (k : KeyTy) (o : DecOpts) (v : Val F) : (keyDecoder Γ pools k o v).Plain := by
  cases k with
  | str => exact plain_string _ _ _
  | int w => exact plain_int _ (plain_readIntOf w) _ _
  | uint w => exact plain_int _ (plain_readUintOf w) _ _
  | text i => exact plain_text (Γ.unmarshalText i) o v

theorem plain_step (Γ : TyEnv F) (cfg : DecCfg F) (pools : Pools) (named : Nat → ValDecoder (Val F)) (S : Nat → Prop)
    (hn : ∀ i, S i → ∀ o v, (named i o v).Plain) (t : Ty) (ht : Spec.OnTheFly S t) (o : DecOpts) (v : Val F) :
    (decoderStep Γ cfg pools named t o v).Plain := by
  induction t generalizing o v with
  | bool => exact plain_bool _ _
  | str => exact plain_string _ _ _
  | int w => exact plain_int _ (plain_readIntOf w) _ _
  | uint w => exact plain_int _ (plain_readUintOf w) _ _
  | ptr t ih => exact plain_ptr _ _ (ih ht) _ _
  | slice t ih =>
    obtain ⟨h1, h2⟩ := ht
    have : (t == Ty.uint .w8) = false := by simpa using h1
    unfold decoderStep
    rw [this]
    exact plain_slice _ _ _ (ih h2) _ _
  | array k t ih => exact plain_array _ _ _ _ (ih ht) _ _
  | map k t ih => exact plain_map _ _ _ _ (plain_key _ _ _) (ih ht) _ _
  | named i => exact hn i ht _ _
  | textUnmarshaler i => exact plain_text _ _ _
  | unsupported => exact .fail _
  | float32 => exact ht.elim
  | float64 => exact ht.elim
  | number => exact ht.elim
  | raw => exact ht.elim
  | any => exact ht.elim
  | jsonUnmarshaler i => exact ht.elim

theorem plain_named (Γ : TyEnv F) (cfg : DecCfg F) (pools : Pools) (S : Nat → Prop) (hS : Spec.Streams Γ S) (n i : Nat) (hi : S i)
    (o : DecOpts) (v : Val F) : (namedDecoder Γ cfg pools n i o v).Plain := by
  induction n generalizing i o v with
  | zero => exact .fail _
  | succ n ih =>
    have h := hS i hi
    unfold namedDecoder
    cases hd : Γ.defn i with
    | slice t =>
      rw [hd] at h
      obtain ⟨h1, h2⟩ := h
      have : (t == Ty.uint .w8) = false := by simpa using h1
      simp only [this]
      exact plain_slice _ _ _ (plain_step Γ cfg pools _ S ih t h2) _ _
    | array k t =>
      rw [hd] at h
      exact plain_array _ _ _ _ (plain_step Γ cfg pools _ S ih t h) _ _
    | map k t =>
      rw [hd] at h
      exact plain_map _ _ _ _ (plain_key _ _ _) (plain_step Γ cfg pools _ S ih t h) _ _
    | struct fs =>
      rw [hd] at h
      cases fs with
      | nil => exact plain_empty _ _ _ _
      | cons f fs =>
        exact plain_struct _ (plain_structMember _ _ _ _ _ fun f hf => plain_step Γ cfg pools _ S ih f.ty (h f hf)) _ _

theorem plain_ReadVal (Γ : TyEnv F) (cfg : DecCfg F) (pools : Pools) (S : Nat → Prop) (hS : Spec.Streams Γ S) (t : Ty)
    (ht : Spec.OnTheFly S t) (old : Val F) : (ReadVal Γ cfg pools t old).Plain :=
  .op _ _ fun n _ => plain_step Γ cfg pools _ S (plain_named Γ cfg pools S hS (n + 1)) t ht _ _

theorem plain_unmarshalProg (Γ : TyEnv F) (cfg : DecCfg F) (pools : Pools) (S : Nat → Prop) (hS : Spec.Streams Γ S) (t : Ty)
    (ht : Spec.OnTheFly S t) (old : Val F) : (unmarshalProg Γ cfg pools t old).Plain := by
  have := plain_ReadVal Γ cfg pools S hS t ht
  have : tokenEOF.Plain := .one _
  unfold unmarshalProg; plain

end


/-! ## Growth -/

theorem scanBuf_bounds {σ β : Type} (body : σ → Byte → Act σ β) (s : σ) (i : Nat) (l : List Byte) :
    match scanBuf body s i l with
    | .exhausted _ j => j = i + l.length
    | .stop _ j => i ≤ j ∧ j ≤ i + l.length
    | .err _ => True := by
  have h := scanBuf_spec body (fun _ => .error .eof) .eof s i l []
  cases hr : scanBuf body s i l with
  | exhausted s' j => simp only [hr] at h ⊢; exact h.1
  | stop b j => simp only [hr] at h ⊢; exact ⟨h.1, h.2.1⟩
  | err e => trivial

namespace PhysIt

/-- What one operation may do to the storage. -/
structure Grow (it it' : PhysIt) : Prop where
  plain : it.capture = false → it'.store.length = it.store.length ∧ it'.fixcap = it.fixcap
  capt : it.capture = true → it.head ≤ it'.head ∧ it'.store.length ≤ max it.store.length (it'.head + 512)
  total : Feed.fin it.feed = .eof → Feed.fin it'.feed = .eof ∧
    it'.store.length + (Feed.left it'.feed).length ≤ it.store.length + (Feed.left it.feed).length
  ok : it'.Ok
  flag : it'.capture = it.capture

theorem Grow.refl {it : PhysIt} (ho : it.Ok) : Grow it it :=
  ⟨fun _ => ⟨rfl, rfl⟩, fun _ => ⟨Nat.le_refl _, Nat.le_max_left _ _⟩, fun h => ⟨h, Nat.le_refl _⟩, ho, rfl⟩

theorem Grow.trans {a b c : PhysIt} (h1 : Grow a b) (h2 : Grow b c) : Grow a c := by
  refine ⟨fun h => ?_, fun h => ?_, fun h => ?_, h2.ok, h2.flag.trans h1.flag⟩
  · obtain ⟨x1, x2⟩ := h1.plain h
    obtain ⟨y1, y2⟩ := h2.plain (h1.flag.trans h)
    exact ⟨y1.trans x1, y2.trans x2⟩
  · obtain ⟨x1, x2⟩ := h1.capt h
    obtain ⟨y1, y2⟩ := h2.capt (h1.flag.trans h)
    exact ⟨Nat.le_trans x1 y1, by omega⟩
  · obtain ⟨x1, x2⟩ := h1.total h
    obtain ⟨y1, y2⟩ := h2.total x1
    exact ⟨y1, by omega⟩

theorem grow_head {it : PhysIt} (ho : it.Ok) (i : Nat) (h1 : it.head ≤ i) (h2 : i ≤ it.tail) : Grow it { it with head := i } :=
  ⟨fun _ => ⟨rfl, rfl⟩, fun _ => ⟨h1, Nat.le_max_left _ _⟩, fun h => ⟨h, Nat.le_refl _⟩, ⟨h2, ho.tail⟩, rfl⟩

theorem Reads.size {f f' : Feed} {n : Nat} {r : RdRes} (h : f.Reads n r f') : r.data.length ≤ n := by
  cases h <;> simp_all

theorem Reads.left {f f' : Feed} {n : Nat} {r : RdRes} (h : f.Reads n r f') (he : Feed.fin (some f) = .eof) :
    Feed.fin (some f') = .eof ∧ (Feed.left (some f')).length + r.data.length = (Feed.left (some f)).length := by
  cases h with
  | chunk d l e n hd => exact ⟨he, by simp [Feed.left]; omega⟩
  | last d n hd => exact ⟨rfl, by simp [Feed.left]⟩
  | broken d e n f hne hd => exact absurd he hne
  | again n => exact ⟨rfl, by simp [Feed.left]⟩

theorem Fill.grow {it it' : PhysIt} {r : RdRes} (h : Fill it r it') (ho : it.Ok) (hh : it.head = it.tail) :
    Grow it it' ∧ (r.data.length = 0 → it'.head = it'.tail) := by
  have ht := ho.tail
  cases h with
  | captured f f' _ cap hc hf hr hcap htail =>
    have hs := Reads.size hr
    refine ⟨⟨fun h => by simp [hc] at h, fun _ => ⟨Nat.le_refl _, ?_⟩, fun he => ?_, ⟨?_, ?_⟩, rfl⟩, ?_⟩
    · simp only [List.length_append, List.length_take]; omega
    · rw [hf] at he ⊢
      obtain ⟨h1, h2⟩ := Reads.left hr he
      refine ⟨h1, ?_⟩
      simp only [List.length_append, List.length_take]; omega
    · simp only; omega
    · simp only [List.length_append, List.length_take]; omega
    · simp only; omega
  | plain f f' _ store hc hf hr hlen htake =>
    have hs := Reads.size hr
    refine ⟨⟨fun _ => ⟨hlen, rfl⟩, fun h => by simp [hc] at h, fun he => ?_, ⟨Nat.zero_le _, ?_⟩, rfl⟩, ?_⟩
    · rw [hf] at he ⊢
      obtain ⟨h1, h2⟩ := Reads.left hr he
      refine ⟨h1, ?_⟩
      simp only [hlen]; omega
    · simp only [hlen]; exact hs
    · simp only; omega

theorem ReadMore.grow {it it' : PhysIt} {e : Option Err} (h : ReadMore it e it') (ho : it.Ok) (hh : it.head = it.tail) :
    Grow it it' := by
  induction h with
  | noReader it hf => exact .refl ho
  | error it it' r e hfill he hn => exact (hfill.grow ho hh).1
  | lastBytes it it' r hfill he hn => exact (hfill.grow ho hh).1
  | bytes it it' r hfill he hn => exact (hfill.grow ho hh).1
  | empty it it1 it' r e hfill he hn _ ih =>
    obtain ⟨h1, h2⟩ := hfill.grow ho hh
    exact h1.trans (ih h1.ok (h2 hn))

theorem Scan.grow {σ β : Type} {body : σ → Byte → Act σ β} {onEOF : σ → Except Err β} {s : σ} {it it' : PhysIt}
    {r : Except Err β} (h : Scan body onEOF s it r it') (ho : it.Ok) : Grow it it' := by
  have hlen : ∀ it : PhysIt, it.Ok → it.head + ((it.store.take it.tail).drop it.head).length = it.tail := by
    intro it ho
    have := ho.head
    have := ho.tail
    simp only [List.length_drop, List.length_take]; omega
  have hex : ∀ {it : PhysIt} {s s' : σ} {i : Nat}, it.Ok →
      scanBuf body s it.head ((it.store.take it.tail).drop it.head) = .exhausted s' i → i = it.tail := by
    intro it s s' i ho hs
    have := scanBuf_bounds body s it.head ((it.store.take it.tail).drop it.head)
    rw [hs] at this
    simp only at this
    rw [this, hlen it ho]
  induction h with
  | panic s it hp => exact .refl ho
  | stop s it b i _ hs =>
    have := scanBuf_bounds body s it.head ((it.store.take it.tail).drop it.head)
    rw [hs] at this
    simp only at this
    rw [hlen it ho] at this
    exact grow_head ho i this.1 this.2
  | err s it e _ hs => exact .refl ho
  | again s s' it it1 it' i r _ hs hm _ ih =>
    have := hex ho hs
    subst this
    have h1 := grow_head ho it.tail ho.head (Nat.le_refl _)
    have h2 := hm.grow h1.ok rfl
    exact (h1.trans h2).trans (ih h2.ok)
  | eof s s' it it1 i _ hs hm =>
    have := hex ho hs
    subst this
    have h1 := grow_head ho it.tail ho.head (Nat.le_refl _)
    exact h1.trans (hm.grow h1.ok rfl)
  | fault s s' it it1 i e _ hs hm he =>
    have := hex ho hs
    subst this
    have h1 := grow_head ho it.tail ho.head (Nat.le_refl _)
    exact h1.trans (hm.grow h1.ok rfl)

theorem NextByte.grow {it it' : PhysIt} {r : Except Err Byte} (h : NextByte it r it') (ho : it.Ok) : Grow it it' := by
  cases h with
  | here => exact .refl ho
  | panic => exact .refl ho
  | more _ _ hh hm => exact hm.grow ho hh
  | morePanic _ hh hm => exact hm.grow ho hh
  | error _ _ hh hm => exact hm.grow ho hh

theorem settle_grow {it : PhysIt} {c : Byte} {d : Dec} (ho : it.Ok) (ho' : (it.settle c d).2.Ok) : Grow it (it.settle c d).2 := by
  cases d with
  | take => exact grow_head ho _ (Nat.le_succ _) ho'.head
  | leave => exact .refl ho
  | fail e => exact .refl ho

theorem OpRun.grow {β : Type} {o : Op β} {it it' : PhysIt} {r : Except Err β} (h : OpRun o it r it') (ho : it.Ok) : Grow it it' := by
  have hk := h.ok ho
  cases h with
  | token d _ it1 c hs => exact (hs.grow ho).trans (settle_grow (hs.grow ho).ok hk)
  | tokenError d _ it1 e hs => exact hs.grow ho
  | byte d _ it1 c hs => exact (hs.grow ho).trans (settle_grow (hs.grow ho).ok hk)
  | byteError d _ it1 e hs => exact hs.grow ho
  | scan body onEOF s _ it1 r hs => exact hs.grow ho
  | inputOffset => exact .refl ho
  | remaining => exact .refl ho

theorem OpRun.gives {β : Type} {o : Op β} {it it' : PhysIt} {r : Except Err β} (h : OpRun o it r it') :
    ∀ b, r = .ok b → o.Gives b := by
  have hset : ∀ (a : PhysIt) (c b : Byte) (d : Byte → Dec), (a.settle c (d c)).1 = .ok b → ∀ e, d b ≠ .fail e := by
    intro a c b d hb e he
    unfold settle at hb
    cases hd : d c with
    | take => rw [hd] at hb; cases hb; rw [hd] at he; cases he
    | leave => rw [hd] at hb; cases hb; rw [hd] at he; cases he
    | fail e => rw [hd] at hb; cases hb
  cases h with
  | token d _ it1 c hs => exact fun b hb => hset _ _ _ _ hb
  | tokenError d _ it1 e hs => intro b hb; cases hb
  | byte d _ it1 c hs => exact fun b hb => hset _ _ _ _ hb
  | byteError d _ it1 e hs => intro b hb; cases hb
  | scan body onEOF s _ it1 r hs => intros; trivial
  | inputOffset => intros; trivial
  | remaining => intros; trivial

/-- A program that keeps no text needs no more storage. -/
theorem Run.plain {α : Type} {p : Prog α} {it it' : PhysIt} {r : Except Err α} (h : Run p it r it') (hp : p.Plain) (ho : it.Ok)
    (hc : it.capture = false) : it'.store.length = it.store.length ∧ it'.fixcap = it.fixcap := by
  induction hp generalizing it with
  | pure a => cases h; exact ⟨rfl, rfl⟩
  | fail e => cases h; exact ⟨rfl, rfl⟩
  | op o k _ ih =>
    cases h with
    | op _ _ _ it1 _ b _ h1 h2 =>
      have g := h1.grow ho
      obtain ⟨x1, x2⟩ := g.plain hc
      obtain ⟨y1, y2⟩ := ih b (h1.gives b rfl) h2 g.ok (g.flag.trans hc)
      exact ⟨y1.trans x1, y2.trans x2⟩
    | opError _ _ _ _ e h1 => exact (h1.grow ho).plain hc

/-- While the text is kept, the storage reaches at most 512 bytes behind the bytes looked at. -/
theorem Run.kept_text {α : Type} {p : Prog α} {it it' : PhysIt} {r : Except Err α} (h : Run p it r it') (ho : it.Ok)
    (hc : it.capture = true) : it.head ≤ it'.head ∧ it'.store.length ≤ max it.store.length (it'.head + 512) := by
  induction h with
  | pure => exact ⟨Nat.le_refl _, Nat.le_max_left _ _⟩
  | fail => exact ⟨Nat.le_refl _, Nat.le_max_left _ _⟩
  | op o k it it1 it' b r h1 h2 ih =>
    have g := h1.grow ho
    have := g.capt hc
    have := ih g.ok (g.flag.trans hc)
    omega
  | opError o k it it1 e h1 => exact (h1.grow ho).capt hc
  | captured p k it it1 it' b r h1 hx h2 ih1 ih2 =>
    have hk := (h1.sim ⟨ho.head, ho.tail⟩).1
    have := ih1 ⟨ho.head, ho.tail⟩ rfl
    have := ih2 ⟨hk.head, hk.tail⟩ hc
    simp only at *
    omega
  | capturedPanic p k it it1 b h1 hx ih1 => exact ih1 ⟨ho.head, ho.tail⟩ rfl
  | capturedError p k it it1 e h1 ih1 => exact ih1 ⟨ho.head, ho.tail⟩ rfl

/-- The storage is never larger than what it was and what the reader has delivered together. -/
theorem Run.total {α : Type} {p : Prog α} {it it' : PhysIt} {r : Except Err α} (h : Run p it r it') (ho : it.Ok)
    (he : Feed.fin it.feed = .eof) : Feed.fin it'.feed = .eof ∧
      it'.store.length + (Feed.left it'.feed).length ≤ it.store.length + (Feed.left it.feed).length := by
  induction h with
  | pure => exact ⟨he, Nat.le_refl _⟩
  | fail => exact ⟨he, Nat.le_refl _⟩
  | op o k it it1 it' b r h1 h2 ih =>
    have g := h1.grow ho
    obtain ⟨x1, x2⟩ := g.total he
    obtain ⟨y1, y2⟩ := ih g.ok x1
    exact ⟨y1, by omega⟩
  | opError o k it it1 e h1 => exact (h1.grow ho).total he
  | captured p k it it1 it' b r h1 hx h2 ih1 ih2 =>
    have hk := (h1.sim ⟨ho.head, ho.tail⟩).1
    obtain ⟨x1, x2⟩ := ih1 ⟨ho.head, ho.tail⟩ he
    obtain ⟨y1, y2⟩ := ih2 ⟨hk.head, hk.tail⟩ x1
    simp only at *
    exact ⟨y1, by omega⟩
  | capturedPanic p k it it1 b h1 hx ih1 => exact ih1 ⟨ho.head, ho.tail⟩ he
  | capturedError p k it it1 e h1 ih1 => exact ih1 ⟨ho.head, ho.tail⟩ he

theorem Run.bind {α β : Type} {p : Prog α} {f : α → Prog β} {it it1 it' : PhysIt} {a : α} {r : Except Err β}
    (h : Run p it (.ok a) it1) (h' : Run (f a) it1 r it') : Run (p >>= f) it r it' := by
  change Run (p.bind f) it r it'
  generalize hs : (Except.ok a : Except Err α) = s at h
  induction h with
  | pure b it => cases hs; exact h'
  | fail e it => cases hs
  | op o k it it2 it1 b s h1 h2 ih => exact .op _ _ _ _ _ _ _ h1 (ih h' hs)
  | opError o k it it1 e h1 => cases hs
  | captured p k it it2 it1 b s h1 hx h2 ih1 ih2 => exact .captured _ _ _ _ _ _ _ h1 hx (ih2 h' hs)
  | capturedPanic p k it it1 b h1 hx ih1 => cases hs
  | capturedError p k it it1 e h1 ih1 => cases hs

/-- Keeping one text. -/
theorem Run.one_text {α β : Type} {p : Prog β} {f : β → List Byte → α} {it it' : PhysIt}
    {r : Except Err α} (h : Run (.captured p fun x => .pure (f x.1 x.2)) it r it') (ho : it.Ok) :
    ∀ a, r = .ok a → ∃ b l, a = f b l ∧ it'.head = it.head + l.length ∧
      it'.store.length ≤ max it.store.length (it.head + l.length + 512) := by
  intro a ha
  subst ha
  cases h with
  | captured _ _ _ it1 _ b _ h1 hx h2 =>
    have := h1.kept_text ⟨ho.head, ho.tail⟩ rfl
    cases h2
    refine ⟨b, _, rfl, ?_, ?_⟩
    · simp only [List.length_drop, List.length_take]; omega
    · simp only [List.length_drop, List.length_take] at *; omega

end PhysIt

end Jzon
