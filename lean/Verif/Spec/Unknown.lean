import Verif.Spec.HasTy

/-!
# Specification: unknown members
-/

namespace Spec

open Jzon (Byte Err Val Key KeyTy PathStep Ty Field TyEnv DecCfg DecOpts)

section
variable {F : Type}

/-- The fields that the keys of the members select, with the texts of the values; members whose keys select none are left
out, but must be values with string keys. -/
inductive KnownOf (sel : List Byte → Nat → Prop) : List (List Byte × List Byte) → List (Nat × List Byte) → Prop
  | nil : KnownOf sel [] []
  | field (m : List Byte × List Byte) (key : List Byte) (i : Nat) (ms : List (List Byte × List Byte)) (xs : List (Nat × List Byte))
      (hk : Str m.1 key) (hs : sel key i) (h : KnownOf sel ms xs) : KnownOf sel (m :: ms) ((i, m.2) :: xs)
  | unknown (m : List Byte × List Byte) (key : List Byte) (ms : List (List Byte × List Byte)) (xs : List (Nat × List Byte))
      (hk : Str m.1 key) (hs : ∀ i, ¬ sel key i) (hv : IsValue m.2) (h : KnownOf sel ms xs) : KnownOf sel (m :: ms) xs

/-- A text is decoded into a field of a struct variable. -/
def FieldRel (zero : Ty → Val F) (fs : List Field) (R : Ty → Rel F) (s : Val F) (x : Nat × List Byte) (s' : Val F) : Prop :=
  ∃ f, fs[x.1]? = some f ∧ AtPath zero (fun a b => R f.ty { quoted := f.quoted } a x.2 b) f.path s s'

/-- The text begins with members that take the variable from one value to another, each followed by a comma. -/
inductive Before {S : Type} (G : S → List Byte × List Byte → S → Prop) : S → List Byte → S → List Byte → Prop
  | nil (s : S) (l : List Byte) : Before G s l s l
  | cons (s s1 s' : S) (w t w2 l1 l' : List Byte) (m : List Byte × List Byte) (hw : Ws w) (hm : MemberOf t m) (hg : G s m s1)
      (hw2 : Ws w2) (h : Before G s1 l1 s' l') : Before G s (w ++ (t ++ (w2 ++ 0x2C :: l1))) s' l'

/-- The text begins with a key that selects no field, and a colon. -/
def AtUnknown (sel : List Byte → Nat → Prop) (l : List Byte) (key : List Byte) : Prop :=
  ∃ w t w2 rest, Ws w ∧ Str t key ∧ Ws w2 ∧ l = w ++ (t ++ (w2 ++ 0x3A :: rest)) ∧ ∀ i, ¬ sel key i

/-- The text begins with a key and a colon, `rest` follows. -/
def AtKey (l key rest : List Byte) : Prop :=
  ∃ w t w2, Ws w ∧ Str t key ∧ Ws w2 ∧ l = w ++ (t ++ (w2 ++ 0x3A :: rest))

/-- The text begins with texts that are followed by commas, `l'` follows. -/
inductive Leading : List Byte → List (List Byte) → List Byte → Prop
  | nil (l : List Byte) : Leading l [] l
  | cons (w t w2 l1 l' : List Byte) (ts : List (List Byte)) (hw : Ws w) (hw2 : Ws w2) (h : Leading l1 ts l') :
      Leading (w ++ (t ++ (w2 ++ 0x2C :: l1))) (t :: ts) l'

/-- The path leads from the value `v` to `a`; a nil pointer to an embedded struct whose type is exported leads to a zero value. -/
inductive LeafAt (zero : Ty → Val F) : List PathStep → Val F → Val F → Prop
  | here (a : Val F) : LeafAt zero [] a a
  | member (i : Nat) (p : List PathStep) (vs : List (Val F)) (v a : Val F) (hi : vs[i]? = some v) (h : LeafAt zero p v a) :
      LeafAt zero (.member i :: p) (.struct vs) a
  | deref (e : Bool) (t : Ty) (p : List PathStep) (v a : Val F) (h : LeafAt zero p v a) : LeafAt zero (.deref e t :: p) (.ptr v) a
  | alloc (t : Ty) (p : List PathStep) (a : Val F) (h : LeafAt zero p (zero t) a) : LeafAt zero (.deref true t :: p) .nilPtr a

/-- For types, old values and the option `string`: the texts and the new values. -/
def DecodesWith (Γ : TyEnv F) (cfg : DecCfg F) (lax : Bool) (sel : List (List Byte) → List Byte → Nat → Prop) (T : Ty) : Rel F :=
  fun o old t v => ∃ n, DecodesN Γ cfg lax sel n T o old t v

/-- Taking the text `l` for a variable of type `T` that holds a value, everything up to a key `k` is in order, and `k` selects no
field of the struct that its object goes to.  Nothing is said about what follows `k`. -/
inductive UnknownIn (Γ : TyEnv F) (cfg : DecCfg F) (lax : Bool) (sel : List (List Byte) → List Byte → Nat → Prop) :
    Ty → Val F → List Byte → List Byte → Prop
  /-- the key of a member of the object itself -/
  | here (i : Nat) (fs : List Field) (old s : Val F) (w l l' k : List Byte) (hi : Γ.defn i = .struct fs) (hfs : fs ≠ []) (hw : Ws w)
      (hb : Before (MemberRel true (Γ.zero cfg) (sel (fs.map Field.name)) fs (DecodesWith Γ cfg lax sel)) old l s l')
      (ha : AtUnknown (sel (fs.map Field.name)) l' k) : UnknownIn Γ cfg lax sel (.named i) old (w ++ 0x7B :: l) k
  /-- in the value of a member of the object -/
  | field (i j : Nat) (fs : List Field) (f : Field) (old s a : Val F) (w l l' key rest k : List Byte) (hi : Γ.defn i = .struct fs) (hw : Ws w)
      (hb : Before (MemberRel true (Γ.zero cfg) (sel (fs.map Field.name)) fs (DecodesWith Γ cfg lax sel)) old l s l')
      (hk : AtKey l' key rest) (hs : sel (fs.map Field.name) key j) (hj : fs[j]? = some f) (hp : LeafAt (Γ.zero cfg) f.path s a)
      (h : UnknownIn Γ cfg lax sel f.ty a rest k) : UnknownIn Γ cfg lax sel (.named i) old (w ++ 0x7B :: l) k
  | ptr (T : Ty) (old : Val F) (l k : List Byte) (h : UnknownIn Γ cfg lax sel T (pointee (Γ.zero cfg T) old) l k) :
      UnknownIn Γ cfg lax sel (.ptr T) old l k
  | slice (T U : Ty) (old : Val F) (w l l' k : List Byte) (ts : List (List Byte)) (hT : Is Γ T (.slice U)) (hw : Ws w) (hb : Leading l ts l')
      (hts : ∀ t ∈ ts, ∃ v, DecodesWith Γ cfg lax sel U {} (Γ.zero cfg U) t v)
      (h : UnknownIn Γ cfg lax sel U (Γ.zero cfg U) l' k) : UnknownIn Γ cfg lax sel T old (w ++ 0x5B :: l) k
  | array (T U : Ty) (n : Nat) (old : Val F) (w l l' k : List Byte) (ts : List (List Byte)) (hT : Is Γ T (.array n U)) (hw : Ws w)
      (hb : Leading l ts l') (hn : ts.length < n)
      (hts : ∀ i t, ts[i]? = some t → ∃ v, DecodesWith Γ cfg lax sel U {} (element (Γ.zero cfg U) old i) t v)
      (h : UnknownIn Γ cfg lax sel U (element (Γ.zero cfg U) old ts.length) l' k) : UnknownIn Γ cfg lax sel T old (w ++ 0x5B :: l) k
  | map (T U : Ty) (K : KeyTy) (old : Val F) (w l l' w2 t w3 rest k : List Byte) (key : Key) (hT : Is Γ T (.map K U)) (hw : Ws w)
      (hb : Before (fun (_ : Unit) m _ => ∃ key v, KeyRel Γ lax K m.1 key ∧ DecodesWith Γ cfg lax sel U {} (Γ.zero cfg U) m.2 v) () l () l')
      (hw2 : Ws w2) (ht : KeyRel Γ lax K t key) (hw3 : Ws w3) (hl : l' = w2 ++ (t ++ (w3 ++ 0x3A :: rest)))
      (h : UnknownIn Γ cfg lax sel U (Γ.zero cfg U) rest k) : UnknownIn Γ cfg lax sel T old (w ++ 0x7B :: l) k

/-- The types that decoding a type of `P` involves are in `P`. -/
structure Closed (Γ : TyEnv F) (P : Ty → Prop) : Prop where
  ptr : ∀ T, P (.ptr T) → P T
  slice : ∀ T E, P T → Is Γ T (.slice E) → P E
  array : ∀ T n E, P T → Is Γ T (.array n E) → P E
  map : ∀ T K E, P T → Is Γ T (.map K E) → P E
  field : ∀ i fs f, P (.named i) → Γ.defn i = .struct fs → f ∈ fs → P f.ty

/-- No struct with fields is involved in decoding the type. -/
def NoStruct (Γ : TyEnv F) (T : Ty) : Prop :=
  ∃ P, Closed Γ P ∧ P T ∧ ∀ i fs, P (.named i) → Γ.defn i = .struct fs → fs = []

end

end Spec
