import Verif.Model.Gc

/-!
# Well-typed memory

What it means that memory holds Go values: each object was allocated for a type (or is a map, the bytes of a string, a slice header
of the library), and pointers lead to memory of the right type.
-/

namespace Jzon.Gc

/-- What an object was allocated for. -/
inductive Shape where
  | block (t : Typ)
  | text
  | table (t : Typ)
  /-- a header of `unsafeMakeSlice` with its `Data` and `Cap` -/
  | header (t : Typ) (arr cap : Nat)
  deriving DecidableEq, Repr

abbrev Layout := Nat → Option Shape

/-- At the offset `o` of a value of the first type there is a value of the second type. -/
inductive Inside : Typ → Nat → Typ → Prop
  | self (t : Typ) : Inside t 0 t
  | elem (n : Nat) (t : Typ) (i o : Nat) (u : Typ) : i < n → Inside t o u → Inside (.array n t) (i * size t + o) u
  | part (n : Nat) (t : Typ) (i m : Nat) : i + m ≤ n → Inside (.array n t) (i * size t) (.array m t)
  | fst (a b : Typ) (o : Nat) (u : Typ) : Inside a o u → Inside (.pair a b) o u
  | snd (a b : Typ) (o : Nat) (u : Typ) : Inside b o u → Inside (.pair a b) (size a + o) u

/-- There is a value of type `t` at `p`. -/
def At (S : Layout) (p : Loc) (t : Typ) : Prop := ∃ T, S p.obj = some (.block T) ∧ Inside T p.off t

/-- The words are a value of the type. -/
def CellsOk (S : Layout) : Typ → List Cell → Prop
  | .leaf, cs => ∃ n, cs = [.num n]
  | .str, cs => ∃ a l, cs = [.ptr a, .num l] ∧ ∀ q : Loc, a = some q → S q.obj = some .text
  | .ptr t, cs => ∃ a, cs = [.ptr a] ∧ ∀ q, a = some q → At S q t
  | .slice t, cs => ∃ a l c, cs = [.ptr a, .num l, .num c] ∧ l ≤ c ∧ (a = none → c = 0) ∧ ∀ q, a = some q → At S q (.array c t)
  | .map t, cs => ∃ a, cs = [.ptr a] ∧ ∀ q : Loc, a = some q → S q.obj = some (.table t)
  | .array n t, cs => cs.length = n * size t ∧ ∀ i, i < n → CellsOk S t ((cs.drop (i * size t)).take (size t))
  | .pair a b, cs => ∃ x y, cs = x ++ y ∧ CellsOk S a x ∧ CellsOk S b y
  | .embed t, cs => ∃ a, cs = [.ptr a] ∧ ∀ q, a = some q → At S q t

/-- The object is of its shape. -/
def ObjOk (S : Layout) (k : HeaderKind) : Shape → Obj → Prop
  | .block t, x => CellsOk S t x.cells ∧ x.entries = []
  | .text, x => ∃ n, x = ⟨[.num n], []⟩
  | .table t, x => x.cells = [] ∧ ∀ e ∈ x.entries, CellsOk S t e.2
  | .header t a c, x => ∃ l, x = ⟨[k.cell (some ⟨a, 0⟩), .num l, .num c], []⟩ ∧ l ≤ c ∧ S a = some (.block (.array c t))

/-- All objects are of their shapes. -/
def Typed (S : Layout) (k : HeaderKind) (h : Store) : Prop := ∀ o s, S o = some s → o < h.next ∧ ObjOk S k s (h.obj o)

/-- What may come next in a JSON document for the value that is being decoded; anything else is an error of the input. -/
def Expected : Frame → Event → Prop
  | .dec .leaf _, e | .dec .str _, e => e = .null ∨ ∃ n, e = .scalar n
  | .dec (.ptr _) _, e => e = .null ∨ e = .silent
  | .dec (.embed _) _, e => e = .silent
  | .dec (.slice _) _, e | .dec (.map _) _, e | .dec (.array _ _) _, e | .dec (.pair _ _) _, e => e = .null ∨ e = .opening
  | .sliceFirst _ _ _, e | .mapFirst _ _, e => e = .closing ∨ e = .silent
  | .sliceNext _ _ _ _, e | .mapNext _ _, e => e = .closing ∨ e = .comma
  | .mapKey _ _, e => ∃ n, e = .key n
  | .array n _ _ i, e => e = .closing ∨ if i < n then e = .silent else e = .skip
  | .fields _ _ _, e => e = .closing ∨ e = .key 0 ∨ e = .key 1 ∨ e = .skip
  | _, e => e = .silent

end Jzon.Gc
