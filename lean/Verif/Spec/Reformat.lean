import Verif.Spec.Restores

/-!
# Specification: documents that are read and written again
-/

namespace Spec

open Jzon (Byte GoVal Val Key Ty PathStep Field TyEnv FloatArg DecCfg)

section
variable {F : Type}

/-- A float that `ParseFloat` gives can be written, and `ParseFloat` gives it again for what is written (the contract of `strconv`
for the shortest text of a float). -/
def FloatsBack (cfg : DecCfg F) (arg : F → FloatArg) : Prop :=
  ∀ t f, literal cfg.ops64 t = .ok f → (arg f).isInf = false ∧ (arg f).isNaN = false ∧
    ∀ t', NumText arg false (.float f) t' → literal cfg.ops64 t' = .ok f

/-- The documents mean the same: they are equal up to the order of members and to members that are overridden by later ones of the same
name. -/
inductive SameDocument : JVal → JVal → Prop
  | null : SameDocument .null .null
  | bool (b : Bool) : SameDocument (.bool b) (.bool b)
  | num (t : List Byte) : SameDocument (.num t) (.num t)
  | str (s : List Byte) : SameDocument (.str s) (.str s)
  | arr (vs vs' : List JVal) (hlen : vs.length = vs'.length)
      (h : ∀ (i : Nat) (v v' : JVal), vs[i]? = some v → vs'[i]? = some v' → SameDocument v v') : SameDocument (.arr vs) (.arr vs')
  | obj (ms ms' : List (List Byte × JVal)) (hk : ∀ k, (∃ v, (k, v) ∈ ms) ↔ ∃ v, (k, v) ∈ ms')
      (h : ∀ (a b a' b' : List (List Byte × JVal)) (k : List Byte) (v v' : JVal), ms = a ++ (k, v) :: b → ms' = a' ++ (k, v') :: b' →
        (∀ x, (k, x) ∉ b) → (∀ x, (k, x) ∉ b') → SameDocument v v') : SameDocument (.obj ms) (.obj ms')

/-- All strings are UTF-8 and all maps finite. -/
def Tidy (v : Val F) : Prop := Utf8Val v ∧ FiniteVal v

def TidyKey (k : Key) : Prop := ∀ s, k = .str s → ValidUtf8 s

/-- The program itself does not put anything into variables that is not UTF-8: neither by the zero values of its types nor by keys
that its methods `UnmarshalText` make out of UTF-8. -/
structure TidyProgram (Γ : TyEnv F) (cfg : DecCfg F) (P : Ty → Prop) : Prop where
  zero : ∀ T, P T → Tidy (Γ.zero cfg T)
  embedded : ∀ i fs f T, P (.named i) → Γ.defn i = .struct fs → f ∈ fs → PathStep.deref true T ∈ f.path → Tidy (Γ.zero cfg T)
  keys : ∀ i s x, ValidUtf8 s → Γ.unmarshalText i (Γ.zeroOther i) s = .ok x → TidyKey (keyValue x)
  zeroKeys : ∀ i, TidyKey (keyValue (Γ.zeroOther i))

end

end Spec
