import Verif.Spec.Gc

/-!
# Values in memory

Which Go value the words of a variable stand for, and which value a variable has after decoding.
-/

namespace Jzon.Gc

/-- A Go value. -/
inductive Value where
  | num (n : Nat)
  /-- `none`: the empty string -/
  | str (s : Option Nat)
  /-- a nil pointer, slice or map -/
  | nil
  | ptr (v : Value)
  | slice (vs : List Value)
  | map (es : List (Nat × Value))
  | array (vs : List Value)
  | pair (a b : Value)

/-- The entries of a map; a nil map has none. -/
def Value.entries : Value → List (Nat × Value)
  | .map es => es
  | _ => []

/-- The zero value of a type. -/
def zeroVal : Typ → Value
  | .leaf => .num 0
  | .str => .str none
  | .ptr _ | .slice _ | .map _ | .embed _ => .nil
  | .array n t => .array (List.replicate n (zeroVal t))
  | .pair a b => .pair (zeroVal a) (zeroVal b)

/-- Set a key of a map. -/
def putEntry (k : Nat) (v : Value) : List (Nat × Value) → List (Nat × Value)
  | [] => [(k, v)]
  | e :: es => if e.1 = k then (k, v) :: es else e :: putEntry k v es

mutual

/-- A variable of the type with the first value has the second one after decoding what the events stand for. -/
inductive Decodes : Typ → Value → List Event → Value → Prop
  | num (v : Value) (n : Nat) : Decodes .leaf v [.scalar n] (.num n)
  | numNull (v : Value) : Decodes .leaf v [.null] v
  | str (v : Value) (n : Nat) : Decodes .str v [.scalar n] (.str (some n))
  | strNull (v : Value) : Decodes .str v [.null] v
  | ptrNull (t : Typ) (v : Value) : Decodes (.ptr t) v [.null] .nil
  | ptrNew (t : Typ) (es : List Event) (v : Value) : es.head? ≠ some .null → Decodes t (zeroVal t) es v → Decodes (.ptr t) .nil es (.ptr v)
  | ptrOld (t : Typ) (es : List Event) (v v' : Value) : es.head? ≠ some .null → Decodes t v es v' → Decodes (.ptr t) (.ptr v) es (.ptr v')
  | embedNew (t : Typ) (es : List Event) (v : Value) : Decodes t (zeroVal t) es v → Decodes (.embed t) .nil es (.ptr v)
  | embedOld (t : Typ) (es : List Event) (v v' : Value) : Decodes t v es v' → Decodes (.embed t) (.ptr v) es (.ptr v')
  | sliceNull (t : Typ) (v : Value) : Decodes (.slice t) v [.null] .nil
  | sliceEmpty (t : Typ) (v : Value) : Decodes (.slice t) v [.opening, .closing] (.slice [])
  | slice (t : Typ) (v : Value) (es : List Event) (vs : List Value) : Elems t es vs → Decodes (.slice t) v (.opening :: es) (.slice vs)
  | mapNull (t : Typ) (v : Value) : Decodes (.map t) v [.null] .nil
  | mapEmpty (t : Typ) (v : Value) : Decodes (.map t) v [.opening, .closing] (.map v.entries)
  | map (t : Typ) (v : Value) (es : List Event) (kvs : List (Nat × Value)) : Entries t v.entries es kvs →
      Decodes (.map t) v (.opening :: es) (.map kvs)
  | arrayNull (n : Nat) (t : Typ) (v : Value) : Decodes (.array n t) v [.null] v
  | array (n : Nat) (t : Typ) (vs : List Value) (es : List Event) (vs' : List Value) : ArrElems t vs es vs' →
      Decodes (.array n t) (.array vs) (.opening :: es) (.array vs')
  | pairNull (a b : Typ) (v : Value) : Decodes (.pair a b) v [.null] v
  | pair (a b : Typ) (va vb : Value) (es : List Event) (va' vb' : Value) : PairFields a b va vb es va' vb' →
      Decodes (.pair a b) (.pair va vb) (.opening :: es) (.pair va' vb')

/-- The elements of a slice: each is decoded into a new variable. -/
inductive Elems : Typ → List Event → List Value → Prop
  | lastElem (t : Typ) (es : List Event) (v : Value) : Decodes t (zeroVal t) es v → Elems t (es ++ [.closing]) [v]
  | elem (t : Typ) (es : List Event) (v : Value) (es' : List Event) (vs : List Value) : Decodes t (zeroVal t) es v → Elems t es' vs →
      Elems t (es ++ .comma :: es') (v :: vs)

/-- The entries of a map: each value is decoded into a new variable; the last one for a key counts. -/
inductive Entries : Typ → List (Nat × Value) → List Event → List (Nat × Value) → Prop
  | lastEntry (t : Typ) (kvs : List (Nat × Value)) (k : Nat) (es : List Event) (v : Value) : Decodes t (zeroVal t) es v →
      Entries t kvs (.key k :: es ++ [.closing]) (putEntry k v kvs)
  | entry (t : Typ) (kvs : List (Nat × Value)) (k : Nat) (es : List Event) (v : Value) (es' : List Event) (kvs' : List (Nat × Value)) :
      Decodes t (zeroVal t) es v → Entries t (putEntry k v kvs) es' kvs' → Entries t kvs (.key k :: es ++ .comma :: es') kvs'

/-- The elements of an array: each is decoded into the old one; those that do not come become zero, those that are too many are
skipped. -/
inductive ArrElems : Typ → List Value → List Event → List Value → Prop
  | rest (t : Typ) (vs : List Value) : ArrElems t vs [.closing] (vs.map fun _ => zeroVal t)
  | next (t : Typ) (v : Value) (vs : List Value) (es : List Event) (v' : Value) (es' : List Event) (vs' : List Value) :
      Decodes t v es v' → ArrElems t vs es' vs' → ArrElems t (v :: vs) (es ++ es') (v' :: vs')
  | over (t : Typ) (es : List Event) : ArrElems t [] es [] → ArrElems t [] (.skip :: es) []

/-- The fields of a struct, in any order and number. -/
inductive PairFields : Typ → Typ → Value → Value → List Event → Value → Value → Prop
  | finish (a b : Typ) (va vb : Value) : PairFields a b va vb [.closing] va vb
  | fst (a b : Typ) (va vb : Value) (es : List Event) (v : Value) (es' : List Event) (va' vb' : Value) : Decodes a va es v →
      PairFields a b v vb es' va' vb' → PairFields a b va vb (.key 0 :: es ++ es') va' vb'
  | snd (a b : Typ) (va vb : Value) (es : List Event) (v : Value) (es' : List Event) (va' vb' : Value) : Decodes b vb es v →
      PairFields a b va v es' va' vb' → PairFields a b va vb (.key 1 :: es ++ es') va' vb'
  | unknown (a b : Typ) (va vb : Value) (es : List Event) (va' vb' : Value) : PairFields a b va vb es va' vb' →
      PairFields a b va vb (.skip :: es) va' vb'

end

mutual

/-- The words stand for the value; the objects in the list belong to it. -/
inductive Reps (h : Store) : List Cell → Typ → Value → List Nat → Prop
  | num (n : Nat) : Reps h [.num n] .leaf (.num n) []
  | strNil : Reps h [.ptr none, .num 0] .str (.str none) []
  | str (o n : Nat) : h.obj o = ⟨[.num n], []⟩ → Reps h [.ptr (some ⟨o, 0⟩), .num 1] .str (.str (some n)) [o]
  | ptrNil (t : Typ) : Reps h [.ptr none] (.ptr t) .nil []
  | ptr (t : Typ) (q : Nat) (cs : List Cell) (v : Value) (fp : List Nat) : h.obj q = ⟨cs, []⟩ → Reps h cs t v fp →
      Reps h [.ptr (some ⟨q, 0⟩)] (.ptr t) (.ptr v) (q :: fp)
  | embedNil (t : Typ) : Reps h [.ptr none] (.embed t) .nil []
  | embed (t : Typ) (q : Nat) (cs : List Cell) (v : Value) (fp : List Nat) : h.obj q = ⟨cs, []⟩ → Reps h cs t v fp →
      Reps h [.ptr (some ⟨q, 0⟩)] (.embed t) (.ptr v) (q :: fp)
  | sliceNil (t : Typ) : Reps h [.ptr none, .num 0, .num 0] (.slice t) .nil []
  | slice (t : Typ) (a cap : Nat) (cs rest : List Cell) (vs : List Value) (fp : List Nat) : h.obj a = ⟨cs ++ rest, []⟩ →
      (cs ++ rest).length = cap * size t → vs.length ≤ cap → RepsList h cs t vs fp →
      Reps h [.ptr (some ⟨a, 0⟩), .num vs.length, .num cap] (.slice t) (.slice vs) (a :: fp)
  | mapNil (t : Typ) : Reps h [.ptr none] (.map t) .nil []
  | map (t : Typ) (m : Nat) (es : List (Nat × List Cell)) (kvs : List (Nat × Value)) (fp : List Nat) : h.obj m = ⟨[], es⟩ →
      RepsEntries h es t kvs fp → Reps h [.ptr (some ⟨m, 0⟩)] (.map t) (.map kvs) (m :: fp)
  | array (n : Nat) (t : Typ) (cs : List Cell) (vs : List Value) (fp : List Nat) : vs.length = n → RepsList h cs t vs fp →
      Reps h cs (.array n t) (.array vs) fp
  | pair (a b : Typ) (ca cb : List Cell) (va vb : Value) (fa fb : List Nat) : Reps h ca a va fa → Reps h cb b vb fb →
      Reps h (ca ++ cb) (.pair a b) (.pair va vb) (fa ++ fb)

/-- The values one after the other. -/
inductive RepsList (h : Store) : List Cell → Typ → List Value → List Nat → Prop
  | none (t : Typ) : RepsList h [] t [] []
  | more (t : Typ) (c cs : List Cell) (v : Value) (vs : List Value) (f fp : List Nat) : Reps h c t v f → RepsList h cs t vs fp →
      RepsList h (c ++ cs) t (v :: vs) (f ++ fp)

/-- The entries of a map. -/
inductive RepsEntries (h : Store) : List (Nat × List Cell) → Typ → List (Nat × Value) → List Nat → Prop
  | empty (t : Typ) : RepsEntries h [] t [] []
  | entry (t : Typ) (k : Nat) (c : List Cell) (es : List (Nat × List Cell)) (v : Value) (kvs : List (Nat × Value)) (f fp : List Nat) :
      Reps h c t v f → RepsEntries h es t kvs fp → RepsEntries h ((k, c) :: es) t ((k, v) :: kvs) (f ++ fp)

end

/-- The variable of type `t` at `p` has the value; the objects `fp` belong to it, and no two pointers in it lead to the same object. -/
def Holds (h : Store) (p : Loc) (t : Typ) (v : Value) (fp : List Nat) : Prop :=
  p.obj < h.next ∧ p.off + size t ≤ (h.obj p.obj).cells.length ∧ Reps h (((h.obj p.obj).cells.drop p.off).take (size t)) t v fp ∧
    (p.obj :: fp).Nodup ∧ ∀ o ∈ fp, o < h.next

/-- The events that stand for input. -/
def visible (es : List Event) : List Event := es.filter fun e => e ≠ .silent

end Jzon.Gc
