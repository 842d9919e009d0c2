import Verif.Spec.Reformat
import Verif.Proof.Utf8Text
import Verif.Proof.Restores

/-!
# Documents that are read and written again
-/

set_option linter.unusedSimpArgs false

namespace Jzon

open Spec

section
variable {F : Type} {num : List Byte → Option (GoVal F)}

theorem each_of_toGoList {vs : List JVal} {gs : List (GoVal F)} (h : toGoList num vs = some gs) : Each (fun j g => toGo num j = some g) vs gs := by
  induction vs generalizing gs with
  | nil =>
    simp [toGoList] at h
    subst h
    exact .nil
  | cons v vs ih =>
    simp only [toGoList] at h
    split at h
    · rename_i g gs' h1 h2
      cases h
      exact .cons h1 (ih h2)
    · cases h

theorem each_of_toGoMembers {ms : List (List Byte × JVal)} {gs : List (List Byte × GoVal F)} (h : toGoMembers num ms = some gs) :
    Each (fun j g => j.1 = g.1 ∧ toGo num j.2 = some g.2) ms gs := by
  induction ms generalizing gs with
  | nil =>
    simp [toGoMembers] at h
    subst h
    exact .nil
  | cons m ms ih =>
    obtain ⟨k, v⟩ := m
    simp only [toGoMembers] at h
    split at h
    · rename_i g gs' h1 h2
      cases h
      exact .cons ⟨rfl, h1⟩ (ih h2)
    · cases h

theorem each_mem_left {A B : Type} {R : A → B → Prop} {as : List A} {bs : List B} (h : Each R as bs) {a : A} (ha : a ∈ as) : ∃ b ∈ bs, R a b := by
  induction h with
  | nil => cases ha
  | cons h _ ih =>
    rcases List.mem_cons.mp ha with rfl | ha
    · exact ⟨_, by simp, h⟩
    · obtain ⟨b, hb, hr⟩ := ih ha
      exact ⟨b, by simp [hb], hr⟩

theorem lastWins_mem {gs : List (List Byte × GoVal F)} {k : List Byte} {g : GoVal F} (h : lastWins gs k = some g) : (k, g) ∈ gs := by
  unfold lastWins at h
  cases hf : gs.reverse.find? fun m => m.1 == k with
  | none => simp [hf] at h
  | some m =>
    simp [hf] at h
    have h1 := List.mem_of_find?_eq_some hf
    have h2 := List.find?_some hf
    simp at h1 h2
    subst h h2
    exact h1

theorem lastWins_split {a b : List (List Byte × GoVal F)} {k : List Byte} {g : GoVal F} (hb : ∀ x, (k, x) ∉ b) :
    lastWins (a ++ (k, g) :: b) k = some g := by
  unfold lastWins
  have : b.reverse.find? (fun m => m.1 == k) = none := by
    rw [List.find?_eq_none]
    intro x hx
    simp at hx ⊢
    intro h
    exact hb x.2 (by rw [← h]; exact hx)
  simp [List.find?_append, this]

theorem lastWins_some {gs : List (List Byte × GoVal F)} {k : List Byte} {g : GoVal F} (h : (k, g) ∈ gs) : ∃ g', lastWins gs k = some g' := by
  unfold lastWins
  cases hf : gs.reverse.find? fun m => m.1 == k with
  | none =>
    rw [List.find?_eq_none] at hf
    have := hf (k, g) (by simpa using h)
    simp at this
  | some m => exact ⟨_, rfl⟩

/-- What is read from a document in UTF-8 comes back. -/
theorem toGo_back {cfg : DecCfg F} {arg : F → FloatArg} (hf : cfg.useNumber = false → FloatsBack cfg arg) {j : JVal} (hj : Utf8J j) :
    ∀ g, toGo (anyNumber cfg) j = some g → RestoresAny cfg arg g ∧ EncodableAny (fun _ => False) arg g := by
  induction hj with
  | null =>
    intro g h
    cases h
    exact ⟨.nil, .nil⟩
  | bool b =>
    intro g h
    cases h
    exact ⟨.bool _, .bool _⟩
  | num t hn =>
    intro g h
    simp only [toGo, anyNumber] at h
    split at h
    · rename_i hu
      cases h
      exact ⟨.number _ hn hu, .number _⟩
    · rename_i hu
      split at h
      · rename_i f hl
        cases h
        have hu' : cfg.useNumber = false := by simpa using hu
        obtain ⟨h1, h2, h3⟩ := hf hu' _ _ hl
        exact ⟨.float _ hu' h3, .float _ (by simp [h1]) (by simp [h2])⟩
      · cases h
  | str s hs =>
    intro g h
    cases h
    exact ⟨.str _ hs, .str _⟩
  | arr vs _ ih =>
    intro g h
    simp only [toGo] at h
    cases hg : toGoList (anyNumber cfg) vs with
    | none => simp [hg] at h
    | some gs =>
      simp [hg] at h
      subst h
      have he := each_of_toGoList hg
      refine ⟨.arr _ fun g hm => ?_, .arr _ fun g hm => ?_⟩
      · obtain ⟨v, hv, hr⟩ := each_mem_right he hm
        exact (ih v hv g hr).1
      · obtain ⟨v, hv, hr⟩ := each_mem_right he hm
        exact (ih v hv g hr).2
  | obj ms hk _ ih =>
    intro g h
    simp only [toGo] at h
    cases hg : toGoMembers (anyNumber cfg) ms with
    | none => simp [hg] at h
    | some gs =>
      simp [hg] at h
      subst h
      have he := each_of_toGoMembers hg
      refine ⟨.obj _ (fun k g hm => ?_) fun k g hm => ?_, .obj _ ⟨gs.map (·.1), fun k hs => ?_⟩ fun k g hm => ?_⟩
      · obtain ⟨⟨k', v⟩, hv, rfl, hr⟩ := each_mem_right he (lastWins_mem hm)
        exact hk _ hv
      · obtain ⟨⟨k', v⟩, hv, rfl, hr⟩ := each_mem_right he (lastWins_mem hm)
        exact (ih _ hv g hr).1
      · obtain ⟨g, hg⟩ := Option.isSome_iff_exists.mp hs
        exact List.mem_map_of_mem (f := (·.1)) (lastWins_mem hg)
      · obtain ⟨⟨k', v⟩, hv, rfl, hr⟩ := each_mem_right he (lastWins_mem hm)
        exact (ih _ hv g hr).2

theorem each_getL {A B : Type} {R : A → B → Prop} {as : List A} {bs : List B} (h : Each R as bs) {i : Nat} {a : A} (ha : as[i]? = some a) :
    ∃ b, bs[i]? = some b ∧ R a b := by
  induction h generalizing i with
  | nil => simp at ha
  | cons h _ ih =>
    cases i with
    | zero =>
      simp at ha
      subst ha
      exact ⟨_, rfl, h⟩
    | succ i =>
      simp at ha
      simpa using ih ha

theorem each_len {A B : Type} {R : A → B → Prop} {as : List A} {bs : List B} (h : Each R as bs) : as.length = bs.length := by
  induction h with
  | nil => rfl
  | cons _ _ ih => simp [ih]

theorem each_splitAt {A B : Type} {R : A → B → Prop} {a b : List A} {x : A} {bs : List B} (h : Each R (a ++ x :: b) bs) :
    ∃ a' x' b', bs = a' ++ x' :: b' ∧ R x x' ∧ Each R b b' := by
  induction a generalizing bs with
  | nil =>
    cases h with
    | cons h hr => exact ⟨[], _, _, rfl, h, hr⟩
  | cons y a ih =>
    cases h with
    | cons h hr =>
      obtain ⟨a', x', b', rfl, h1, h2⟩ := ih hr
      exact ⟨_ :: a', x', b', rfl, h1, h2⟩

/-- The member of a document that counts. -/
theorem toGoMembers_last {ms a b : List (List Byte × JVal)} {gs : List (List Byte × GoVal F)} {k : List Byte} {v : JVal}
    (h : toGoMembers num ms = some gs) (hm : ms = a ++ (k, v) :: b) (hb : ∀ x, (k, x) ∉ b) : ∃ g, toGo num v = some g ∧ lastWins gs k = some g := by
  subst hm
  obtain ⟨a', ⟨k', g⟩, b', rfl, ⟨hk, hg⟩, hr⟩ := each_splitAt (each_of_toGoMembers h)
  simp at hk hg
  subst hk
  refine ⟨g, hg, lastWins_split fun x hx => ?_⟩
  obtain ⟨⟨k', v'⟩, hv, h1, _⟩ := each_mem_right hr hx
  simp at h1
  subst h1
  exact hb _ hv

theorem toGoMembers_key {ms : List (List Byte × JVal)} {gs : List (List Byte × GoVal F)} (h : toGoMembers num ms = some gs) (k : List Byte) :
    (∃ v, (k, v) ∈ ms) ↔ ∃ g, lastWins gs k = some g := by
  have he := each_of_toGoMembers h
  constructor
  · rintro ⟨v, hv⟩
    obtain ⟨⟨k', g⟩, hg, h1, _⟩ := each_mem_left he hv
    simp at h1
    subst h1
    exact lastWins_some hg
  · rintro ⟨g, hg⟩
    obtain ⟨⟨k', v⟩, hv, h1, _⟩ := each_mem_right he (lastWins_mem hg)
    simp at h1
    subst h1
    exact ⟨v, hv⟩

theorem sizeOf_member {ms a b : List (List Byte × JVal)} {k : List Byte} {v : JVal} (h : ms = a ++ (k, v) :: b) : sizeOf v < sizeOf ms := by
  subst h
  induction a with
  | nil => simp; omega
  | cons x a ih => simp at ih ⊢; omega

/-- Documents with the same Go value mean the same. -/
theorem sameDocument_of_toGo (n : Nat) : ∀ (j j' : JVal) (g : GoVal F), sizeOf j ≤ n → toGo (fun t => some (.number t)) j = some g →
    toGo (fun t => some (.number t)) j' = some g → SameDocument j j' := by
  induction n with
  | zero =>
    intro j j' g hn
    cases j <;> simp at hn
  | succ n ih =>
    intro j j' g hn h h'
    cases j with
    | null =>
      cases h
      cases j' with
      | null => exact .null
      | arr vs => simp [toGo] at h'
      | obj vs => simp [toGo] at h'
      | _ => cases h'
    | bool b =>
      cases h
      cases j' with
      | bool b' => cases h'; exact .bool b
      | arr vs => simp [toGo] at h'
      | obj vs => simp [toGo] at h'
      | _ => cases h'
    | num t =>
      cases h
      cases j' with
      | num t' => cases h'; exact .num t
      | arr vs => simp [toGo] at h'
      | obj vs => simp [toGo] at h'
      | _ => cases h'
    | str s =>
      cases h
      cases j' with
      | str s' => cases h'; exact .str s
      | arr vs => simp [toGo] at h'
      | obj vs => simp [toGo] at h'
      | _ => cases h'
    | arr vs =>
      simp only [toGo] at h
      cases hg : toGoList (F := F) (fun t => some (.number t)) vs with
      | none => simp [hg] at h
      | some gs =>
        simp [hg] at h
        subst h
        cases j' with
        | arr vs' =>
          simp only [toGo] at h'
          cases hg' : toGoList (F := F) (fun t => some (.number t)) vs' with
          | none => simp [hg'] at h'
          | some gs' =>
            simp [hg'] at h'
            subst h'
            have e1 := each_of_toGoList hg
            have e2 := each_of_toGoList hg'
            refine .arr _ _ ((each_len e1).trans (each_len e2).symm) fun i v v' hv hv' => ?_
            obtain ⟨x, hx, h1⟩ := each_getL e1 hv
            obtain ⟨x', hx', h2⟩ := each_getL e2 hv'
            rw [hx] at hx'
            cases hx'
            refine ih v v' x ?_ h1 h2
            have := List.sizeOf_lt_of_mem (List.mem_of_getElem? hv)
            simp at hn
            omega
        | obj ms =>
          simp only [toGo] at h'
          cases hg' : toGoMembers (F := F) (fun t => some (.number t)) ms <;> simp [hg'] at h'
        | _ => cases h'
    | obj ms =>
      simp only [toGo] at h
      cases hg : toGoMembers (F := F) (fun t => some (.number t)) ms with
      | none => simp [hg] at h
      | some gs =>
        simp [hg] at h
        subst h
        cases j' with
        | arr vs =>
          simp only [toGo] at h'
          cases hg' : toGoList (F := F) (fun t => some (.number t)) vs <;> simp [hg'] at h'
        | obj ms' =>
          simp only [toGo] at h'
          cases hg' : toGoMembers (F := F) (fun t => some (.number t)) ms' with
          | none => simp [hg'] at h'
          | some gs' =>
            simp [hg'] at h'
            refine .obj _ _ (fun k => ?_) fun a b a' b' k v v' hm hm' hb hb' => ?_
            · rw [toGoMembers_key hg, toGoMembers_key hg', h']
            · obtain ⟨x, hx, h1⟩ := toGoMembers_last hg hm hb
              obtain ⟨x', hx', h2⟩ := toGoMembers_last hg' hm' hb'
              rw [h', h1] at h2
              cases h2
              refine ih v v' x ?_ hx hx'
              have := sizeOf_member hm
              simp at hn
              omega
        | _ => cases h'

end

end Jzon
