import Verif.Spec.Words

/-!
# Memory as the language allows it, and values that contain themselves

`Holds` (in `Verif.Model.Words`) says that the content of a variable is a given finite value.  Here is what the language guarantees
of the variables of a program, finite content or not: each variable looks as its type says, and the variables and words it leads to
do so too (`WellTyped`).  `Part` is the relation between a variable and the variables its content is made of; a pointer, slice, map
or interface can lead back to a variable it is part of.
-/

namespace Jzon.Words

section
variable (Γ : Types) (m : Memory) (V : RTy → Addr → Prop) (W : RTy → Ptr → Prop)

/-- The data word of an interface with the dynamic type `t`. -/
def BoxLooks (t : RTy) (w : Ptr) : Prop :=
  Γ.isIface t = false ∧ ((Γ.direct t = false ∧ ∃ a, w = some a ∧ V t a) ∨ (Γ.direct t = true ∧ W t w))

/-- What is found at the address of a variable of type `t`, if the variables and words it leads to are among `V` and `W`. -/
inductive VarLooks : RTy → Addr → Prop
  | prim {a k n} : m a = some (.prim k n) → VarLooks (.prim k) a
  | nilPtr {a t} : m a = some (.ptr none) → VarLooks (.ptr t) a
  | ptr {a t b} : m a = some (.ptr (some b)) → V t b → VarLooks (.ptr t) a
  | nilSlice {a t} : m a = some (.slice none 0) → VarLooks (.slice t) a
  | slice {a t b n} : m a = some (.slice (some b) n) → (∀ i : Nat, i < n → V t (b + i * Γ.size t)) → VarLooks (.slice t) a
  | array {a t n} : (∀ i : Nat, i < n → V t (a + i * Γ.size t)) → VarLooks (.array n t) a
  | struct {a i} : (∀ j f, (Γ.fields i)[j]? = some f → V f (a + Γ.offset i j)) → VarLooks (.struct i) a
  | nilMap {a k t} : m a = some (.ptr none) → VarLooks (.map k t) a
  | map {a k t b es} : m a = some (.ptr (some b)) → m b = some (.map es) → (∀ x ∈ es, V k x.1 ∧ V t x.2) → VarLooks (.map k t) a
  | nilEface {a i} : Γ.methods i = false → m a = some (.eface none) → VarLooks (.iface i) a
  | eface {a i t w} : Γ.methods i = false → m a = some (.eface (some (t, w))) → Γ.used t → BoxLooks Γ V W t w → VarLooks (.iface i) a
  | nilIface {a i} : Γ.methods i = true → m a = some (.iface none) → VarLooks (.iface i) a
  | iface {a i t w} : Γ.methods i = true → m a = some (.iface (some (t, w))) → Γ.used t → Γ.implements i t = true →
      BoxLooks Γ V W t w → VarLooks (.iface i) a
  | named {a i} : V (Γ.under i) a → VarLooks (.named i) a
  | func {a w} : m a = some (.ptr w) → VarLooks .func a

/-- The same for a word that is a value of type `t`. -/
inductive WordLooks : RTy → Ptr → Prop
  | nilPtr {t} : WordLooks (.ptr t) none
  | ptr {t b} : V t b → WordLooks (.ptr t) (some b)
  | nilMap {k t} : WordLooks (.map k t) none
  | map {k t b es} : m b = some (.map es) → (∀ x ∈ es, V k x.1 ∧ V t x.2) → WordLooks (.map k t) (some b)
  | array {t w} : W t w → WordLooks (.array 1 t) w
  | struct {i t w} : Γ.fields i = [t] → W t w → WordLooks (.struct i) w
  | named {i w} : W (Γ.under i) w → WordLooks (.named i) w
  | func {w} : WordLooks .func w

/-- The variables `V` and the words `W` of a program. -/
structure WellTyped : Prop where
  var : ∀ t a, V t a → VarLooks Γ m V W t a
  word : ∀ t w, W t w → WordLooks Γ m V W t w
end

/-- The variables that a word of type `t` leads to. -/
inductive WordPart (Γ : Types) (m : Memory) : RTy → Ptr → RTy × Addr → Prop
  | ptr {t e b} : Γ.core t = .ptr e → WordPart Γ m t (some b) (e, b)
  | key {t k e b es x} : Γ.core t = .map k e → m b = some (.map es) → x ∈ es → WordPart Γ m t (some b) (k, x.1)
  | elem {t k e b es x} : Γ.core t = .map k e → m b = some (.map es) → x ∈ es → WordPart Γ m t (some b) (e, x.2)
  | array {t e w y} : Γ.core t = .array 1 e → WordPart Γ m e w y → WordPart Γ m t w y
  | struct {t i e w y} : Γ.core t = .struct i → Γ.fields i = [e] → WordPart Γ m e w y → WordPart Γ m t w y

/-- The variables that the data word of an interface with the dynamic type `t` leads to. -/
inductive BoxPart (Γ : Types) (m : Memory) : RTy → Ptr → RTy × Addr → Prop
  | pointer {t a} : Γ.direct t = false → BoxPart Γ m t (some a) (t, a)
  | word {t w y} : Γ.direct t = true → WordPart Γ m t w y → BoxPart Γ m t w y

/-- The variables that the content of a variable leads to at once. -/
inductive Part (Γ : Types) (m : Memory) : RTy × Addr → RTy × Addr → Prop
  | ptr {t a e b} : Γ.core t = .ptr e → m a = some (.ptr (some b)) → Part Γ m (t, a) (e, b)
  | slice {t a e b n} {i : Nat} : Γ.core t = .slice e → m a = some (.slice (some b) n) → i < n → Part Γ m (t, a) (e, b + i * Γ.size e)
  | array {t a n e} {i : Nat} : Γ.core t = .array n e → i < n → Part Γ m (t, a) (e, a + i * Γ.size e)
  | field {t a i j f} : Γ.core t = .struct i → (Γ.fields i)[j]? = some f → Part Γ m (t, a) (f, a + Γ.offset i j)
  | key {t a k e b es x} : Γ.core t = .map k e → m a = some (.ptr (some b)) → m b = some (.map es) → x ∈ es → Part Γ m (t, a) (k, x.1)
  | elem {t a k e b es x} : Γ.core t = .map k e → m a = some (.ptr (some b)) → m b = some (.map es) → x ∈ es → Part Γ m (t, a) (e, x.2)
  | eface {t a i u w y} : Γ.core t = .iface i → m a = some (.eface (some (u, w))) → BoxPart Γ m u w y → Part Γ m (t, a) y
  | iface {t a i u w y} : Γ.core t = .iface i → m a = some (.iface (some (u, w))) → BoxPart Γ m u w y → Part Γ m (t, a) y

/-- The types of the program are written as their kind says, with all their fields: no methods, no encoders of the user, no types
that are not supported. -/
structure Types.ByKind (Γ : Types) : Prop where
  way : ∀ t, Γ.used t → Γ.way t = .kind ∨ Γ.way t = .special .number ∨ Γ.way t = .special .raw
  like : ∀ t, Γ.used t → Γ.likeElem t = true
  custom : ∀ k, Γ.custom (.prim k) = false
  supported : ∀ t, Γ.used t → Γ.unsupported t = false
  key : ∀ t k e, Γ.used t → Γ.core t = .map k e → Γ.text k = false
  written : ∀ t i j f, Γ.used t → Γ.core t = .struct i → (Γ.fields i)[j]? = some f → Γ.used f ∧ ∃ d ∈ Γ.described t, d.path = [j]

end Jzon.Words
